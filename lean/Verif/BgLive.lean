import Verif.BgHist
/-!
# `DKtree_background`: the worker finishes
-/

namespace DK2
namespace BG
open DK
variable {K : K2Impl}

/-- `k` consecutive steps of the worker. -/
def wrun (S : Sizing) : Nat → BG K → WPC K.T → Res (BG K × WPC K.T)
  | 0, s, w => .ok (s, w)
  | k + 1, s, w => wstep S s w >>= fun r => wrun S k r.1 r.2

/-- Steps until the flag is cleared. -/
def rank : WPC K.T → Nat
  | .top => RS + 7
  | .test => RS + 6
  | .build => RS + 5
  | .search _ => RS + 4
  | .merge _ i j => (i + 1 - j) + 3
  | .store _ _ => 2
  | .finish => 1
  | .stopped => 0

theorem rank_le {n : Nat} {cv : List Edge} {s : BG K} {w : WPC K.T} (h : Stage n cv s w) : rank w ≤ RS + 7 := by
  cases w with
  | merge t i j => have := h.2.2.2.2.1; simp only [rank]; omega
  | _ => simp [rank]

theorem rank_step {S : Sizing} {c : JC} {lv cv : List Edge} {x : Nat} {s s' : BG K} {w w' : WPC K.T}
    (h : J S c lv cv x s w) (h' : J S c lv cv x s' w') (hn : s.needs = true)
    (hs : wstep S s w = .ok (s', w')) : s'.needs = false ∨ (s'.needs = true ∧ rank w' < rank w) := by
  cases w with
  | top =>
    simp only [wstep, h.run, if_true] at hs
    cases hs
    exact Or.inr ⟨hn, by simp [rank]⟩
  | test =>
    simp only [wstep, hn, if_true] at hs
    cases hs
    exact Or.inr ⟨hn, by simp [rank]⟩
  | build =>
    simp only [wstep] at hs
    cases hs
    exact Or.inr ⟨hn, by simp [rank]⟩
  | search t =>
    simp only [wstep] at hs
    split at hs
    · cases hs
    · cases hs
      have := h'.stage.2.2.2.2.1
      refine Or.inr ⟨hn, ?_⟩
      simp only [rank]; omega
  | merge t i j =>
    simp only [wstep] at hs
    split at hs
    · split at hs
      · cases hs
      · cases hs
        refine Or.inr ⟨hn, ?_⟩
        simp only [rank]; omega
      · cases hs
        refine Or.inr ⟨hn, ?_⟩
        simp only [rank]; omega
    · cases hs
      refine Or.inr ⟨hn, ?_⟩
      simp only [rank]; omega
  | store t i =>
    simp only [wstep] at hs
    rw [Res.bind_eq_ok] at hs
    obtain ⟨ks, _, hs⟩ := hs
    cases hs
    exact Or.inr ⟨hn, by simp [rank]⟩
  | finish =>
    simp only [wstep] at hs
    cases hs
    exact Or.inl rfl
  | stopped => exact absurd h.stage id

/-- Within `rank` steps the flag is cleared, unless the worker throws. -/
theorem wrun_done (hK : K.Lawful) {S : Sizing} {c : JC} {lv cv : List Edge} {x : Nat} : ∀ (m : Nat) (s : BG K)
    (w : WPC K.T), J S c lv cv x s w → s.needs = true → rank w ≤ m →
    ∃ k, k ≤ m ∧ ((∃ s' w', wrun S k s w = .ok (s', w') ∧ J S c lv cv x s' w' ∧ s'.needs = false) ∨
      (wrun S k s w = .throws ∧ ¬ (S.Top ∧ c.tot))) := by
  intro m
  induction m with
  | zero =>
    intro s w h hn hr
    cases w <;> simp [rank] at hr
    exact absurd h.stage id
  | succ m ih =>
    intro s w h hn hr
    rcases h.wfail with ⟨⟨s', w'⟩, hs⟩ | hs
    · have h' := h.wstep hK hs
      rcases rank_step h h' hn hs with h1 | ⟨h1, h2⟩
      · exact ⟨1, by omega, Or.inl ⟨s', w', by simp [wrun, hs], h', h1⟩⟩
      · obtain ⟨k, hk, h3⟩ := ih s' w' h' h1 (by omega)
        exact ⟨k + 1, by omega, by simpa [wrun, hs] using h3⟩
    · refine ⟨1, by omega, Or.inr ⟨by simp [wrun, hs], ?_⟩⟩
      rintro ⟨hT, ht⟩
      obtain ⟨r, hr⟩ := h.wok hK hT ht
      rw [hs] at hr
      cases hr

end BG
end DK2

namespace DK2
namespace BG
open DK
variable {K : K2Impl}

/-- Every wait of the program is for the merge to finish. -/
def WaitsIdle {α : Type} : BProg K α → Prop
  | .ret _ => True
  | .act _ _ k => ∀ b, WaitsIdle (k b)
  | .wait c k => c = (fun s => !s.needs) ∧ WaitsIdle k

/-- No wait at all. -/
def NoWait {α : Type} : BProg K α → Prop
  | .ret _ => True
  | .act _ _ k => ∀ b, NoWait (k b)
  | .wait _ _ => False

theorem WaitsIdle.bind {α β : Type} {p : BProg K α} {f : α → BProg K β} (hp : WaitsIdle p)
    (hf : ∀ a, WaitsIdle (f a)) : WaitsIdle (p.bind f) := by
  induction p with
  | ret a => exact hf a
  | act acc g k ih => exact fun b => ih b (hp b)
  | wait c k ih => exact ⟨hp.1, ih hp.2⟩

theorem NoWait.bind {α β : Type} {p : BProg K α} {f : α → BProg K β} (hp : NoWait p)
    (hf : ∀ a, NoWait (f a)) : NoWait (p.bind f) := by
  induction p with
  | ret a => exact hf a
  | act acc g k ih => exact fun b => ih b (hp b)
  | wait c k ih => exact absurd hp id

theorem NoWait.idle {α : Type} {p : BProg K α} (h : NoWait p) : WaitsIdle p := by
  induction p with
  | ret a => exact trivial
  | act acc g k ih => exact fun b => ih b (h b)
  | wait c k ih => exact absurd h id

theorem contains_noWait (e : Edge) : NoWait (contains e : BProg K Bool) := by
  refine NoWait.bind (fun _ => trivial) (fun b => ?_)
  cases b with
  | true => exact trivial
  | false =>
    refine NoWait.bind (fun _ => trivial) (fun nd => ?_)
    cases nd <;> exact fun _ => trivial

theorem listNeighbour_noWait (x : Nat) : NoWait (listNeighbour x : BProg K (List Nat)) := by
  refine NoWait.bind (fun _ => trivial) (fun b => NoWait.bind (fun _ => trivial) (fun nd => ?_))
  cases nd <;> exact fun _ => trivial

theorem flush_noWait (e : Edge) : NoWait (flush e : BProg K Unit) :=
  NoWait.bind (fun _ => trivial) (fun _ => NoWait.bind (fun _ => trivial) (fun _ => fun _ => trivial))

theorem addEdge_waits (wv : Bool) (S : Sizing) (e : Edge) : WaitsIdle (addEdge wv S e : BProg K Unit) := by
  refine WaitsIdle.bind (contains_noWait e).idle (fun b => ?_)
  cases b with
  | true => exact trivial
  | false =>
    refine WaitsIdle.bind (fun _ => trivial) (fun f => ?_)
    cases f with
    | true => exact fun _ => trivial
    | false =>
      cases wv with
      | true => exact ⟨rfl, (flush_noWait e).idle⟩
      | false =>
        refine WaitsIdle.bind (fun _ => trivial) (fun nd => ?_)
        cases nd with
        | true => exact fun _ => trivial
        | false => exact (flush_noWait e).idle

theorem addAll_waits (wv : Bool) (S : Sizing) (es : List Edge) : WaitsIdle (addAll wv S es : BProg K Unit) := by
  induction es with
  | nil => exact trivial
  | cons e es ih => exact WaitsIdle.bind (addEdge_waits wv S e) (fun _ => ih)

theorem call_waits (wv : Bool) (S : Sizing) (o : Op) : WaitsIdle (call wv S o : BProg K Unit) := by
  cases o with
  | add e => exact addEdge_waits wv S e
  | del e =>
    refine WaitsIdle.bind (p := Prog.act _ _ _) (fun _ => trivial) (fun b => ?_)
    cases b with
    | true => exact trivial
    | false =>
      exact ⟨rfl, WaitsIdle.bind (p := Prog.act _ _ _) (fun _ => trivial) (fun es => addAll_waits wv S es)⟩

theorem WaitsIdle.exec {α : Type} {S : Sizing} {p p' : BProg K α} {s s' : BG K} {w w' : WPC K.T} (h : WaitsIdle p)
    (he : Exec (worker K S) p s w p' s' w') : WaitsIdle p' := by
  induction he with
  | start => exact h
  | caller _ hs ih =>
    cases hs with
    | act hf => exact ih _
    | pass hc => exact ih.2
  | worker _ _ ih => exact ih

theorem Exec_wrun {α : Type} {S : Sizing} {p : BProg K α} : ∀ (k : Nat) {s s' : BG K} {w w' : WPC K.T},
    wrun S k s w = .ok (s', w') → Exec (worker K S) p s w p s' w' := by
  intro k
  induction k with
  | zero => intro s s' w w' h; simp only [wrun] at h; cases h; exact .start
  | succ k ih =>
    intro s s' w w' h
    simp only [wrun] at h
    rw [Res.bind_eq_ok] at h
    obtain ⟨⟨s1, w1⟩, h1, h2⟩ := h
    exact Exec.trans (.worker .start h1) (ih h2)

/-- From every point of a call that cannot fail some schedule brings it to its end. -/
theorem Ok.returns (hK : K.Lawful) {S : Sizing} (hT : S.Top) {α : Type} {p : BProg K α}
    {P : BG K → WPC K.T → Prop} {Q : α → BG K → WPC K.T → Prop}
    {tot tg : Prop} (htt : tot) (htg : tg) (h : Ok (worker K S) (good S tg) tot p P Q) (hw : WaitsIdle p) {s : BG K} {w : WPC K.T} (hp : P s w) :
    ∃ a s' w', Exec (worker K S) p s w (.ret a) s' w' := by
  induction p generalizing P s w with
  | ret a => exact ⟨a, s, w, .start⟩
  | act acc f k ih =>
    obtain ⟨_, _, h3, P', h4, h5⟩ := h
    obtain ⟨⟨s', b⟩, hf⟩ := h3 htt s w hp
    obtain ⟨a, s2, w2, he⟩ := ih b (h5 b) (hw b) (h4 _ _ _ _ hp hf)
    exact ⟨a, s2, w2, Exec.trans (.caller .start (.act hf)) he⟩
  | wait c k ih =>
    have hx : ∃ s' w', Exec (worker K S) (.wait c k : BProg K α) s w (.wait c k) s' w' ∧ s'.needs = false := by
      cases hn : s.needs with
      | false => exact ⟨s, w, .start, hn⟩
      | true =>
        obtain ⟨c', lv, cv, x, hJ, ht⟩ := (Ok.stable _ h).2 s w hp
        obtain ⟨m, _, h1 | ⟨_, h1⟩⟩ := wrun_done hK (rank w) s w hJ hn (Nat.le_refl _)
        · obtain ⟨s', w', h2, _, h3⟩ := h1
          exact ⟨s', w', Exec_wrun m h2, h3⟩
        · exact absurd ⟨hT, ht htg⟩ h1
    obtain ⟨s', w', he, hn⟩ := hx
    obtain ⟨P', h1, h2⟩ := h.exec _ hp he
    obtain ⟨_, P'', h3, h4⟩ := h1
    have hc : c s' = true := by rw [hw.1]; simp [hn]
    obtain ⟨a, s2, w2, he2⟩ := ih h4 hw.2 (h3 _ _ h2 hc)
    exact ⟨a, s2, w2, Exec.trans (.caller he (.pass hc)) he2⟩

/-- A call without waits that cannot fail returns even if the worker does nothing. -/
theorem Ok.returns_alone {W : Worker (BG K) (WPC K.T) BLoc} {α : Type} {p : BProg K α} {I : BG K → WPC K.T → Prop}
    {P : BG K → WPC K.T → Prop} {Q : α → BG K → WPC K.T → Prop}
    (h : Ok W I True p P Q) (hw : NoWait p) {s : BG K} {w : WPC K.T} (hp : P s w) :
    ∃ a s', Exec W p s w (.ret a) s' w := by
  induction p generalizing P s with
  | ret a => exact ⟨a, s, .start⟩
  | act acc f k ih =>
    obtain ⟨_, _, h3, P', h4, h5⟩ := h
    obtain ⟨⟨s', b⟩, hf⟩ := h3 trivial s w hp
    obtain ⟨a, s2, he⟩ := ih b (h5 b) (hw b) (h4 _ _ _ _ hp hf)
    exact ⟨a, s2, Exec.trans (.caller .start (.act hf)) he⟩
  | wait c k ih => exact absurd hw id

end BG
end DK2
