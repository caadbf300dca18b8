import Verif.BgProofs
/-!
# Proofs about `DKtree_background`: the calls
-/

namespace DK2
namespace BG
open DK
variable {K : K2Impl}

/-- The invariant between two calls. -/
def JJ (S : Sizing) (c : JC) (s : BG K) (w : WPC K.T) : Prop := J S c s.g.c0.live [] 0 s w

/-- The invariant holds, with the parameters that do not depend on the point of the program. -/
def good (S : Sizing) (tot : Prop) (s : BG K) (w : WPC K.T) : Prop :=
  ∃ c lv cv x, J S c lv cv x s w ∧ (tot → c.tot)

theorem good_intro {S : Sizing} {tot : Prop} {c : JC} {lv cv : List Edge} {x : Nat} {s : BG K} {w : WPC K.T}
    (h : J S c lv cv x s w) (ht : tot → c.tot) : good S tot s w := ⟨c, lv, cv, x, h, ht⟩

macro_rules
  | `(tactic| inv_tac) => `(tactic| (intros; rename_i h; first
      | exact good_intro h (by first | exact id | assumption | exact False.elim)
      | exact good_intro h.1 (by first | exact id | assumption | exact False.elim)
      | exact good_intro h.1.1 (by first | exact id | assumption | exact False.elim)
      | exact good_intro h.1.1.1 (by first | exact id | assumption | exact False.elim)
      | (obtain ⟨_, h⟩ := h; exact good_intro h (by first | exact id | assumption | exact False.elim))
      | (obtain ⟨_, h, _⟩ := h; exact good_intro h (by first | exact id | assumption | exact False.elim))
      | (obtain ⟨_, ⟨_, h⟩, _⟩ := h; exact good_intro h (by first | exact id | assumption | exact False.elim))))

theorem wstep_frame {S : Sizing} {s s' : BG K} {w w' : WPC K.T} (h : wstep S s w = .ok (s', w')) :
    s'.g.c0 = s.g.c0 ∧ s'.g.nTotal = s.g.nTotal ∧ s'.g.nv = s.g.nv ∧ s'.tmpEdge = s.tmpEdge ∧
      s'.bks = s.bks ∧ s'.maxRb = s.maxRb ∧ (s.needs = false → s'.needs = false) := by
  cases w with
  | top => simp only [wstep] at h; cases h; simp
  | test => simp only [wstep] at h; cases h; simp
  | build => simp only [wstep] at h; cases h; simp
  | search t =>
    simp only [wstep] at h
    split at h
    · cases h
    · cases h; simp
  | merge t i j =>
    simp only [wstep] at h
    split at h
    · split at h
      · cases h
      · cases h; simp
      · cases h; simp
    · cases h; simp
  | store t i =>
    simp only [wstep] at h
    rw [Res.bind_eq_ok] at h
    obtain ⟨ks, _, h⟩ := h
    cases h; simp
  | finish => simp only [wstep] at h; cases h; simp
  | stopped => simp only [wstep] at h; cases h; simp

/-- While no merge is pending the worker only spins. -/
theorem J.idle_step {S : Sizing} {c : JC} {lv cv : List Edge} {x : Nat} {s s' : BG K} {w w' : WPC K.T}
    (h : J S c lv cv x s w) (hn : s.needs = false) (hs : BG.wstep S s w = .ok (s', w')) : s' = s := by
  rcases (h.stage.idle hn).1 with rfl | rfl
  · simp only [BG.wstep] at hs; cases hs; rfl
  · simp only [BG.wstep] at hs; cases hs; rfl

section
variable (hK : K.Lawful) (S : Sizing)
include hK

theorem J_stable (c : JC) (lv cv : List Edge) (x : Nat) : Stable (worker K S) (J S c lv cv x) :=
  fun _ _ _ _ h hs => h.wstep hK hs

theorem JJ_stable (c : JC) : Stable (worker K S) (JJ S c) := by
  intro s w s' w' h hs
  have := J.wstep hK h hs
  unfold JJ
  rw [(wstep_frame hs).1]
  exact this

theorem JJ_live_stable (c : JC) (P : List Edge → Prop) :
    Stable (worker K S) (fun s w => JJ S c s w ∧ P s.g.c0.live) := by
  intro s w s' w' h hs
  exact ⟨JJ_stable hK S c _ _ _ _ h.1 hs, by rw [(wstep_frame hs).1]; exact h.2⟩

end

/-- Replacing the parameters. -/
theorem J.congr {S : Sizing} {c c' : JC} {lv cv : List Edge} {x : Nat} {s : BG K} {w : WPC K.T}
    (h : J S c lv cv x s w) (hn : c'.n = c.n) (hG : ∀ e, c'.G e ↔ c.G e) (hD : ∀ e, c.D e → c'.D e)
    (hV : ∀ e, c'.V e → e ∈ lv ∨ Seen s e) (ht : c'.tot → c.tot)
    (hk : c'.k = c.k ∧ c'.cm = c.cm := by exact ⟨rfl, rfl⟩) : J S c' lv cv x s w where
  c0wf := h.c0wf
  c0nv := h.c0nv
  nv := by rw [hn]; exact h.nv
  run := h.run
  len := h.len
  val := by rw [hn]; exact h.val
  above := h.above
  maxR := h.maxR
  rangeC := by rw [hn]; exact h.rangeC
  stage := by rw [hn]; exact h.stage
  cvn := h.cvn
  mem := fun e => (hG e).trans (h.mem e)
  one := fun e he => h.one e (fun hh => he (hD e hh))
  num := fun hh => h.num (fun e he => hh e (hD e he))
  le := fun hh => h.le (ht hh)
  snap := fun hh => ⟨by rw [hn]; exact (h.snap hh).val, (h.snap hh).above, (h.snap hh).sub, (h.snap hh).le⟩
  vis := hV
  tot := fun hh => by
    have t := h.tot (ht hh)
    exact ⟨t.two, by rw [hk.1]; exact t.rare, by rw [hk.2]; exact t.c0m, by rw [hk.1]; exact t.trees, t.tmp,
      by rw [hk.1]; exact t.room⟩

/-- What is visible is present. -/
theorem J.seen_mem {S : Sizing} {c : JC} {lv cv : List Edge} {x : Nat} {s : BG K} {w : WPC K.T}
    (h : J S c lv cv x s w) {e : Edge} (hs : e ∈ lv ∨ Seen s e) : c.G e := by
  rw [h.mem e, stored, List.mem_append]
  rcases hs with h1 | ⟨h1, h2⟩ | ⟨h1, h2⟩
  · exact Or.inl h1
  · exact Or.inr ((h.snap h1).sub e h2)
  · exact Or.inr (List.mem_append_right _ h2)

/-- Without a pending merge everything present is visible. -/
theorem J.idle_seen {S : Sizing} {c : JC} {lv cv : List Edge} {x : Nat} {s : BG K} {w : WPC K.T}
    (h : J S c lv cv x s w) (hn : s.needs = false) {e : Edge} : c.G e ↔ e ∈ lv ∨ e ∈ flat K s.g.ks := by
  rw [h.mem e, stored, (h.stage.idle hn).2.1, List.nil_append, List.mem_append]

/-- The accesses to the buffer and the counter never conflict with the worker. -/
theorem no_conflict_private {a : Acc BLoc} (h : ∀ l, l ∈ a.rd ∨ l ∈ a.wr →
    l = .c0 ∨ l = .nTotal ∨ l = .tmpEdge ∨ l = .bks ∨ l = .maxRb) (w : WPC K.T) :
    ¬ a.Conflict (wacc w) := by
  rintro (⟨l, h1, h2⟩ | ⟨l, h1, h2⟩)
  · rcases h l (Or.inr h1) with rfl | rfl | rfl | rfl | rfl <;> cases w <;> simp [wacc, Acc.none] at h2
  · rcases h l (Or.inl h1) with rfl | rfl | rfl | rfl | rfl <;> cases w <;> simp [wacc, Acc.none] at h2

/-- Nothing conflicts with an idle worker. -/
theorem no_conflict_idle {a : Acc BLoc} {w : WPC K.T} (h : w = .top ∨ w = .test) :
    ¬ a.Conflict (wacc w) := by
  rcases h with rfl | rfl <;> simp [wacc, Acc.none, Acc.Conflict]

theorem no_conflict_none {w : WPC K.T} : ¬ (Acc.none : Acc BLoc).Conflict (wacc w) := by
  simp [Acc.none, Acc.Conflict]

/-! ## contains -/

section
variable (hK : K.Lawful) (S : Sizing)
include hK

theorem seen_stable {c : JC} {e : Edge} :
    Stable (worker K S) (fun s w => JJ S c s w ∧ (e ∈ s.g.c0.live ∨ Seen s e)) := by
  intro s w s' w' ⟨h, hs⟩ hw
  have h' : JJ S { c with V := fun e' => e' = e } s w :=
    J.congr h rfl (fun _ => Iff.rfl) (fun _ h => h) (fun e' he' => he' ▸ hs) id
  have h2 := JJ_stable hK S _ _ _ _ _ h' hw
  exact ⟨JJ_stable hK S _ _ _ _ _ h hw, h2.vis e rfl⟩

/-- `contains` while other threads run: a positive answer is right, and stays visible; a negative one is
right about every edge known to be visible. -/
theorem contains_ok (c : JC) {e : Edge} (he : InRange c.n e) (tot : Prop) {tg : Prop} (htc : tg → c.tot) :
    Ok (worker K S) (good S tg) tot (contains e) (JJ S c) (fun b s w => JJ S c s w ∧
      (b = true → e ∈ s.g.c0.live ∨ Seen s e) ∧ (b = false → e ∉ s.g.c0.live ∧ ¬ c.V e)) := by
  have hQs : ∀ b : Bool, Stable (worker K S) (fun s w => JJ S c s w ∧
      (b = true → e ∈ s.g.c0.live ∨ Seen s e) ∧ (b = false → e ∉ s.g.c0.live ∧ ¬ c.V e)) := by
    intro b s w s' w' ⟨h, h1, h2⟩ hw
    refine ⟨JJ_stable hK S _ _ _ _ _ h hw, fun hb => (seen_stable hK S s w s' w' ⟨h, h1 hb⟩ hw).2, ?_⟩
    rw [(wstep_frame hw).1]; exact h2
  have hP1 := JJ_live_stable hK S c (fun l => e ∉ l)
  refine Ok.bind (R := fun b s w => JJ S c s w ∧ (b = true → e ∈ s.g.c0.live) ∧ (b = false → e ∉ s.g.c0.live)) _ ?_ ?_
  · refine Ok.read _ (JJ_stable hK S c) (fun s w _ => no_conflict_private (by simp) w) ?_ ?_ ?_
    · intro _ s w h; exact ⟨_, h.c0wf.contains_eq e⟩
    · intro s w b h hb
      rw [h.c0wf.contains_eq e] at hb
      cases hb
      exact ⟨h, by simp, by simp⟩
    · intro b s w s' w' ⟨h, h1, h2⟩ hw
      refine ⟨JJ_stable hK S _ _ _ _ _ h hw, ?_, ?_⟩
      · rw [(wstep_frame hw).1]; exact h1
      · rw [(wstep_frame hw).1]; exact h2
  · intro b
    cases b with
    | true =>
      rw [if_pos rfl]
      refine Ok.ret _ ?_ ?_
      · intro s w s' w' ⟨h, h1, h2⟩ hw
        refine ⟨JJ_stable hK S _ _ _ _ _ h hw, ?_, ?_⟩
        · rw [(wstep_frame hw).1]; exact h1
        · rw [(wstep_frame hw).1]; exact h2
      · intro s w ⟨h, h1, _⟩
        exact ⟨h, fun _ => Or.inl (h1 rfl), fun hh => by cases hh⟩
    | false =>
      rw [if_neg Bool.false_ne_true]
      refine Ok.pre _ (P := fun s w => JJ S c s w ∧ e ∉ s.g.c0.live) ?_ ?_ ?_
      · -- after the buffer
        refine Ok.bind (R := fun nd s w => JJ S c s w ∧ e ∉ s.g.c0.live ∧
            (nd = true → AllValid K c.n s.bks ∧ (∀ i t, s.bks[i]? = some (some t) → i ≤ s.maxRb) ∧
              ∀ e', (e' = s.tmpEdge ∨ e' ∈ flat K s.bks) →
                e' ∈ s.g.c0.live ∨ Seen s e') ∧
            (nd = true → c.V e → e = s.tmpEdge ∨ e ∈ flat K s.bks) ∧ (nd = false → s.needs = false)) _ ?_ ?_
        · refine Ok.read _ hP1 (fun s w _ => no_conflict_none) ?_ ?_ ?_
          · intro _ s w _; exact ⟨_, rfl⟩
          · intro s w b ⟨h, hl⟩ hb
            cases hb
            refine ⟨h, hl, ?_, ?_, fun hh => hh⟩
            · intro hn
              exact ⟨(h.snap hn).val, (h.snap hn).above, fun e' he' => Or.inr (Or.inl ⟨hn, he'⟩)⟩
            · intro hn hv
              rcases h.vis e hv with h1 | ⟨_, h1⟩ | ⟨h1, _⟩
              · exact absurd h1 hl
              · exact h1
              · rw [hn] at h1; cases h1
          · intro b s w s' w' ⟨h, h1, h2, h3, h4⟩ hw
            obtain ⟨f1, f2, f3, f4, f5, f6, f7⟩ := wstep_frame hw
            refine ⟨JJ_stable hK S _ _ _ _ _ h hw, by rw [f1]; exact h1, ?_, ?_, fun hb => f7 (h4 hb)⟩
            · intro hb
              obtain ⟨a1, a2, a3⟩ := h2 hb
              rw [f4, f5, f6]
              refine ⟨a1, a2, ?_⟩
              intro e' he'
              exact (seen_stable hK S s w s' w' ⟨h, a3 e' he'⟩ hw).2
            · intro hb; rw [f4, f5]; exact h3 hb
        · intro nd
          have hst : Stable (worker K S) (fun s w => JJ S c s w ∧ e ∉ s.g.c0.live ∧
            (nd = true → AllValid K c.n s.bks ∧ (∀ i t, s.bks[i]? = some (some t) → i ≤ s.maxRb) ∧
              ∀ e', (e' = s.tmpEdge ∨ e' ∈ flat K s.bks) →
                e' ∈ s.g.c0.live ∨ Seen s e') ∧
            (nd = true → c.V e → e = s.tmpEdge ∨ e ∈ flat K s.bks) ∧ (nd = false → s.needs = false)) := by
            intro s w s' w' ⟨h, h1, h2, h3, h4⟩ hw
            obtain ⟨f1, f2, f3, f4, f5, f6, f7⟩ := wstep_frame hw
            refine ⟨JJ_stable hK S _ _ _ _ _ h hw, by rw [f1]; exact h1, ?_, ?_, fun hb => f7 (h4 hb)⟩
            · intro hb
              obtain ⟨a1, a2, a3⟩ := h2 hb
              rw [f4, f5, f6]
              refine ⟨a1, a2, ?_⟩
              intro e' he'
              exact (seen_stable hK S s w s' w' ⟨h, a3 e' he'⟩ hw).2
            · intro hb; rw [f4, f5]; exact h3 hb
          cases nd with
          | true =>
            rw [if_pos rfl]
            refine Ok.read _ hst (fun s w _ => no_conflict_private (by simp) w) (fun _ s w _ => ⟨_, rfl⟩) ?_ hQs
            intro s w b ⟨h, h1, h2, h3, h4⟩ hb
            cases hb
            obtain ⟨a1, a2, a3⟩ := h2 rfl
            have htk : flat K (s.bks.take (s.maxRb + 1)) = flat K s.bks :=
              take_flat (g := { s.g with ks := s.bks, maxR := s.maxRb }) a2
            have htc := treesContain_iff hK he (a1.take (i := s.maxRb + 1))
            rw [htk] at htc
            refine ⟨h, ?_, ?_⟩
            · intro hb
              unfold snapContains at hb
              split at hb
              · rename_i hte
                exact a3 e (Or.inl hte.symm)
              · exact a3 e (Or.inr (htc.1 hb))
            · intro hb
              refine ⟨h1, ?_⟩
              intro hv
              unfold snapContains at hb
              split at hb
              · cases hb
              · rename_i hte
                rcases h3 rfl hv with h5 | h5
                · exact hte h5.symm
                · rw [htc.2 h5] at hb; cases hb
          | false =>
            rw [if_neg Bool.false_ne_true]
            refine Ok.read _ hst ?_ (fun _ s w _ => ⟨_, rfl⟩) ?_ hQs
            · intro s w ⟨h, h1, h2, h3, h4⟩
              exact no_conflict_idle (h.stage.idle (h4 rfl)).1
            · intro s w b ⟨h, h1, h2, h3, h4⟩ hb
              cases hb
              have hn := h4 rfl
              have htc := treesContain_iff hK he (h.val.take (i := s.g.maxR + 1))
              rw [take_flat h.above] at htc
              refine ⟨h, fun hb => Or.inr (Or.inr ⟨hn, htc.1 hb⟩), fun hb => ⟨h1, ?_⟩⟩
              intro hv
              rcases h.vis e hv with h5 | ⟨h5, _⟩ | ⟨_, h5⟩
              · exact h1 h5
              · rw [hn] at h5; cases h5
              · rw [htc.2 h5] at hb; cases hb
      · intro s w s' w' ⟨h, h1, h2⟩ hw
        refine ⟨JJ_stable hK S _ _ _ _ _ h hw, ?_, ?_⟩
        · rw [(wstep_frame hw).1]; exact h1
        · rw [(wstep_frame hw).1]; exact h2
      · intro s w ⟨h, _, h2⟩; exact ⟨h, h2 rfl⟩

end

/-! ## add_edge -/

/-- The parameters after inserting `e`. -/
def JC.add (c : JC) (e : Edge) (V : Edge → Prop) : JC :=
  ⟨c.n, fun e' => e' = e ∨ c.G e', fun e' => c.D e' ∨ (e' = e ∧ c.G e), c.tot, V, c.k, c.cm⟩

/-- A new edge appended to the buffer. -/
theorem JJ.append {S : Sizing} {c : JC} {s : BG K} {w : WPC K.T} (h : JJ S c s w) {e : Edge}
    (he : InRange c.n e) {b : C0} (hw : b.WF) (hl : b.live = s.g.c0.live ++ [e])
    (hnv : b.nVertices = s.g.c0.nVertices) (hm : b.marked = s.g.c0.marked) :
    JJ S (c.add e (fun e' => e' = e ∨ c.V e'))
      { s with g := { s.g with c0 := b, nTotal := s.g.nTotal + 1 } } w := by
  have hp : pend { s with g := { s.g with c0 := b, nTotal := s.g.nTotal + 1 } } w = pend s w := by
    cases w <;> rfl
  have hlen : (stored b.live { s with g := { s.g with c0 := b, nTotal := s.g.nTotal + 1 } } w).length =
      (stored s.g.c0.live s w).length + 1 := by
    unfold stored; rw [hp, hl]; simp; omega
  have hcnt : ∀ e', (stored b.live { s with g := { s.g with c0 := b, nTotal := s.g.nTotal + 1 } } w).count e' =
      (stored s.g.c0.live s w).count e' + [e].count e' := by
    intro e'
    unfold stored; rw [hp, hl]; simp only [List.count_append]; omega
  refine ⟨hw, by simp only [hnv]; exact h.c0nv, h.nv, h.run, h.len, h.val, h.above, h.maxR, ?_, ?_, h.cvn, ?_, ?_, ?_,
    ?_, ?_, ?_, ?_⟩
  · intro e' he'
    simp only [hl, List.mem_append, List.mem_singleton] at he'
    rcases he' with h1 | h1
    · exact h.rangeC e' h1
    · exact h1 ▸ he
  · have := h.stage; cases w <;> exact this
  · intro e'
    have := h.mem e'
    simp only [JC.add, stored, hp, hl, List.mem_append, List.mem_singleton] at this ⊢
    rw [this]; tauto
  · intro e' he'
    simp only [JC.add, not_or, not_and] at he'
    rw [hcnt]
    have h1 := h.one e' he'.1
    by_cases hee : e' = e
    · have : e' ∉ stored s.g.c0.live s w := fun hh => he'.2 hee (hee ▸ (h.mem e').2 hh)
      rw [List.count_eq_zero_of_not_mem this, hee]
      simp
    · rw [List.count_eq_zero_of_not_mem (l := [e]) (by simpa using hee)]; omega
  · intro hD
    have := h.num (fun e' he' => hD e' (Or.inl he'))
    rw [hlen, this]
  · intro ht
    have := h.le ht
    rw [hlen]; simp only; omega
  · intro hn
    have hs := h.snap hn
    exact ⟨hs.val, hs.above, by rw [hp]; exact hs.sub, hs.le⟩
  · intro e' he'
    rcases he' with h1 | h1
    · left; simp [hl, h1]
    · rcases h.vis e' h1 with h2 | h2
      · left; simp [hl, h2]
      · exact Or.inr h2
  · intro ht
    have t := h.tot ht
    exact ⟨t.two, Nat.le_succ_of_le t.rare, by simp only [hm]; exact t.c0m, t.trees, t.tmp, t.room⟩

/-- After `add_edge(e)`. -/
def AddPost (S : Sizing) (c : JC) (e : Edge) (s : BG K) (w : WPC K.T) : Prop :=
  ∃ V, JJ S (c.add e V) s w ∧ V e ∧ ((∀ e', c.V e' → V e') ∨ s.g.c0.live = [])

theorem AddPost_stable (hK : K.Lawful) (S : Sizing) (c : JC) (e : Edge) :
    Stable (worker K S) (AddPost (K := K) S c e) := by
  rintro s w s' w' ⟨V, h1, h2, h3⟩ hw
  exact ⟨V, JJ_stable hK S _ _ _ _ _ h1 hw, h2, by rw [(wstep_frame hw).1]; exact h3⟩

theorem JJ.insert {S : Sizing} {c : JC} {s s' : BG K} {w : WPC K.T} (h : JJ S c s w) {e : Edge}
    (he : InRange c.n e) (hl : e ∉ s.g.c0.live) (hs : BG.insert S e s = .ok s') : AddPost S c e s' w := by
  unfold BG.insert at hs
  rw [Res.bind_eq_ok] at hs
  obtain ⟨b, hb, hs⟩ := hs
  cases hs
  by_cases hr : s.g.c0.room S s.g.nTotal
  · obtain ⟨c', a1, a2, a3, a4, a5, a6⟩ := C0.insert_absent h.c0wf hl hr
    rw [a1] at hb; cases hb
    exact ⟨_, h.append he a2 a3 a6 a5, Or.inl rfl, Or.inl (fun e' he' => Or.inr he')⟩
  · rw [C0.insert_noroom h.c0wf hl hr] at hb; cases hb

/-- When no edge was deleted from the buffer it has no holes. -/
theorem J.size_eq {S : Sizing} {c : JC} {lv cv : List Edge} {x : Nat} {s : BG K} {w : WPC K.T}
    (h : J S c lv cv x s w) (ht : c.tot ∧ c.cm) : s.g.c0.nElements = s.g.c0.size := by
  have h1 := h.c0wf.marked_eq
  have h2 := h.c0wf.live_length
  have h3 := h.c0wf.size_eq
  have h4 := (h.tot ht.1).c0m ht.2
  omega

theorem JJ.insert_total {S : Sizing} {c : JC} {s : BG K} {w : WPC K.T} (h : JJ S c s w) {e : Edge}
    (hl : e ∉ s.g.c0.live) (hr : s.g.c0.room S s.g.nTotal) : ∃ s', BG.insert S e s = .ok s' := by
  obtain ⟨c', a1, _⟩ := C0.insert_absent (S := S) h.c0wf hl hr
  exact ⟨_, by unfold BG.insert; rw [a1]; rfl⟩

/-- Growing the buffer. -/
theorem JJ.resize {S : Sizing} {c : JC} {s : BG K} {w : WPC K.T} (h : JJ S c s w) (m : Nat) :
    JJ S c { s with g := { s.g with c0 := s.g.c0.resize m } } w ∧ (s.g.c0.resize m).live = s.g.c0.live := by
  obtain ⟨a1, a2, a3, a4, a5, a6, a7⟩ := h.c0wf.resize_spec m
  have hp : pend { s with g := { s.g with c0 := s.g.c0.resize m } } w = pend s w := by cases w <;> rfl
  refine ⟨?_, a2⟩
  unfold JJ
  simp only [a2]
  refine ⟨a1, by simp only [a6]; exact h.c0nv, h.nv, h.run, h.len, h.val, h.above, h.maxR, by
    simp only [a2]; exact h.rangeC, ?_, h.cvn, ?_, ?_, ?_, ?_, ?_, h.vis, ?_⟩
  · have := h.stage; cases w <;> exact this
  · intro e; rw [h.mem e]; unfold stored; rw [hp]
  · intro e he; have := h.one e he; unfold stored at *; rw [hp]; exact this
  · intro hD; have := h.num hD; unfold stored at *; rw [hp]; exact this
  · intro hD; have := h.le hD; unfold stored at *; rw [hp]; exact this
  · intro hn
    have hs := h.snap hn
    exact ⟨hs.val, hs.above, by rw [hp]; exact hs.sub, hs.le⟩
  · intro ht
    have t := h.tot ht
    exact ⟨t.two, t.rare, by simp only [a4]; exact t.c0m, t.trees, t.tmp, t.room⟩

theorem JJ.insertPending {S : Sizing} {c : JC} {s s' : BG K} {w : WPC K.T} (h : JJ S c s w) {e : Edge}
    (he : InRange c.n e) (hl : e ∉ s.g.c0.live) (hs : BG.insertPending S e s = .ok s') :
    AddPost S c e s' w := by
  unfold BG.insertPending at hs
  split at hs
  · obtain ⟨h1, h2⟩ := h.resize (s.g.c0.maxEdges + 10)
    exact h1.insert he (by simp only [h2]; exact hl) hs
  · exact h.insert he hl hs

theorem JJ.insertPending_total {S : Sizing} {c : JC} {s : BG K} {w : WPC K.T} (h : JJ S c s w) {e : Edge}
    (hl : e ∉ s.g.c0.live) (ht : c.tot ∧ c.cm) : ∃ s', BG.insertPending S e s = .ok s' := by
  have hsz := J.size_eq h ht
  have hle := h.c0wf.n_le
  unfold BG.insertPending
  split
  · rename_i hx
    obtain ⟨h1, h2⟩ := h.resize (s.g.c0.maxEdges + 10)
    obtain ⟨a1, a2, a3, a4, a5, a6, a7⟩ := h.c0wf.resize_spec (s.g.c0.maxEdges + 10)
    refine h1.insert_total (by simp only [h2]; exact hl) ?_
    unfold C0.room
    simp only [a3, a5]
    omega
  · rename_i hx
    refine h.insert_total hl ?_
    unfold C0.room
    omega

/-- Between lines 172 and 173: everything is handed over, the flag is not yet set. -/
def Prep (S : Sizing) (c : JC) (e : Edge) (s : BG K) (w : WPC K.T) : Prop :=
  J S c s.g.c0.live (s.g.c0.live ++ [e]) 0 s w ∧ e ∉ s.g.c0.live ∧ s.needs = false ∧ s.bks = s.g.ks ∧
    s.maxRb = s.g.maxR ∧ s.tmpEdge = e ∧ s.maxSb = max s.g.nv s.g.nTotal ∧
    (c.tot → S.maxsz (max s.g.nv s.g.nTotal) 0 ≤ s.g.c0.live.length)

theorem Prep_stable (hK : K.Lawful) (S : Sizing) (c : JC) (e : Edge) :
    Stable (worker K S) (Prep (K := K) S c e) := by
  rintro s w s' w' ⟨h, h1, h2, h3⟩ hw
  have h' := h.wstep hK hw
  have := h.idle_step h2 hw
  subst this
  exact ⟨h', h1, h2, h3⟩

theorem JJ.prepare {S : Sizing} {c : JC} {s s' : BG K} {w : WPC K.T} (h : JJ S c s w) {e : Edge}
    (hn : s.needs = false) (hl : e ∉ s.g.c0.live)
    (hf : c.tot → S.maxsz (max s.g.nv s.g.nTotal) 0 ≤ s.g.c0.live.length)
    (hs : BG.prepare e s = .ok s') : Prep S c e s' w := by
  unfold BG.prepare at hs
  rw [h.c0wf.converted_eq] at hs
  simp only [Res.ok_bind] at hs
  cases hs
  obtain ⟨hw, hpd, hcv⟩ := h.stage.idle hn
  refine ⟨⟨h.c0wf, h.c0nv, h.nv, h.run, h.len, h.val, h.above, h.maxR, h.rangeC, ?_, ?_, ?_, ?_, ?_, ?_, ?_, ?_, ?_⟩,
    hl, hn, rfl, rfl, rfl, rfl, hf⟩
  · rcases hw with rfl | rfl <;> exact ⟨fun hh => by simp [hn] at hh, fun _ => by simp [hcv]⟩
  · intro hh; simp [hn] at hh
  · intro e'; rw [h.mem e']; unfold stored; rcases hw with rfl | rfl <;> simp [pend, hn]
  · intro e' he'
    have := h.one e' he'
    unfold stored at *; rcases hw with rfl | rfl <;> simpa [pend, hn] using this
  · intro he'
    have := h.num he'
    unfold stored at *; rcases hw with rfl | rfl <;> simpa [pend, hn] using this
  · intro he'
    have := h.le he'
    unfold stored at *; rcases hw with rfl | rfl <;> simpa [pend, hn] using this
  · intro hh; simp [hn] at hh
  · intro e' he'
    rcases h.vis e' he' with h1 | ⟨h1, _⟩ | h1
    · exact Or.inl h1
    · rw [hn] at h1; cases h1
    · exact Or.inr (Or.inr h1)
  · intro ht
    have t := h.tot ht
    exact ⟨t.two, t.rare, t.c0m, t.trees, t.tmp, fun hh => by simp [hn] at hh⟩

/-- Between lines 173 and 175: the merge is pending and the buffer still holds its old content. -/
def Mid (S : Sizing) (c : JC) (e : Edge) (s : BG K) (w : WPC K.T) : Prop :=
  ∃ V, J S (c.add e V) [] [] 1 s w ∧ V e

theorem Mid_stable (hK : K.Lawful) (S : Sizing) (c : JC) (e : Edge) :
    Stable (worker K S) (Mid (K := K) S c e) := by
  rintro s w s' w' ⟨V, h, h1⟩ hw
  exact ⟨V, h.wstep hK hw, h1⟩

theorem Prep.start {S : Sizing} {c : JC} {s : BG K} {w : WPC K.T} {e : Edge} (he : InRange c.n e)
    (hp : Prep S c e s w) : Mid S c e { s with needs := true } w := by
  obtain ⟨h, hl, hn, h1, h2, h3, h4, h5⟩ := hp
  obtain ⟨hw, hpd, hcv⟩ := h.stage.idle hn
  have hpd' : pend { s with needs := true } w = s.g.c0.live ++ [e] := by
    rcases hw with rfl | rfl <;> simp [pend, hcv]
  have hst : stored s.g.c0.live s w = s.g.c0.live ++ flat K s.g.ks := by
    unfold stored; rw [hpd]; simp
  have hst' : stored [] { s with needs := true } w = s.g.c0.live ++ [e] ++ flat K s.g.ks := by
    unfold stored; rw [hpd']; simp
  have hlen : (stored [] { s with needs := true } w).length = (stored s.g.c0.live s w).length + 1 := by
    rw [hst, hst']; simp; omega
  have hcnt : ∀ e', (stored [] { s with needs := true } w).count e' =
      (stored s.g.c0.live s w).count e' + [e].count e' := by
    intro e'; rw [hst, hst']; simp only [List.count_append]; omega
  refine ⟨fun e' => e' = e, ⟨h.c0wf, h.c0nv, h.nv, h.run, h.len, h.val, h.above, h.maxR, h.rangeC, ?_, fun _ => rfl,
    ?_, ?_, ?_, ?_, ?_, ?_, ?_⟩, rfl⟩
  · have hb : Batch c.n s.conv := by
      rw [hcv]
      refine ⟨?_, ?_⟩
      · rw [List.nodup_append]
        exact ⟨h.c0wf.live_nodup, by simp, by
          intro a ha b hb hab; simp at hb; exact hl (hb ▸ hab ▸ ha)⟩
      · intro e' he'
        simp only [List.mem_append, List.mem_singleton] at he'
        rcases he' with h6 | h6
        · exact h.rangeC e' h6
        · exact h6 ▸ he
    rcases hw with rfl | rfl <;> exact ⟨fun _ => hb, fun hh => by simp at hh⟩
  · intro e'
    have := h.mem e'
    rw [hst] at this
    rw [hst']
    simp only [JC.add, List.mem_append, List.mem_singleton] at this ⊢
    rw [this]; tauto
  · intro e' he'
    simp only [JC.add, not_or, not_and] at he'
    rw [hcnt]
    have h1 := h.one e' he'.1
    by_cases hee : e' = e
    · have : e' ∉ stored s.g.c0.live s w := fun hh => he'.2 hee (hee ▸ (h.mem e').2 hh)
      rw [List.count_eq_zero_of_not_mem this, hee]
      simp
    · rw [List.count_eq_zero_of_not_mem (l := [e]) (by simpa using hee)]; omega
  · intro hD
    have := h.num (fun e' he' => hD e' (Or.inl he'))
    rw [hlen, this]
  · intro ht
    have := h.le ht
    rw [hlen]; simp only; omega
  · intro _
    refine ⟨by simp only [h1]; exact h.val, by simp only [h1, h2]; exact h.above, ?_, by simp only [h2]; exact Nat.le_refl _⟩
    intro e' he'
    rw [hpd']
    simp only [h1, h3] at he'
    simp only [List.mem_append, List.mem_singleton]
    tauto
  · intro e' he'
    right; left
    exact ⟨rfl, Or.inl (by simp only [h3]; exact he')⟩
  · intro ht
    have t := h.tot ht
    refine ⟨t.two, t.rare, t.c0m, t.trees, by rcases hw with rfl | rfl <;> trivial, ?_⟩
    intro _ _
    have h6 := h.le ht
    rw [hst, List.length_append] at h6
    have h7 := h5 ht
    have h8 := t.two
    have h9 := t.rare
    simp only [h4]
    simp only [JC.add]
    omega

theorem Mid.cleanup {S : Sizing} {c : JC} {s s' : BG K} {w : WPC K.T} {e : Edge}
    (hp : Mid S c e s w) (hs : BG.cleanup s = .ok s') : AddPost S c e s' w := by
  obtain ⟨V, h, hv⟩ := hp
  obtain ⟨b, a1, a2, a3, a4, a5, a6, a7⟩ := h.c0wf.clean_ok
  unfold BG.cleanup at hs
  rw [a1] at hs
  simp only [Res.ok_bind] at hs
  cases hs
  have hpd : pend { s with g := { s.g with c0 := b, nTotal := s.g.nTotal + 1 } } w = pend s w := by
    cases w <;> rfl
  have hst : stored [] { s with g := { s.g with c0 := b, nTotal := s.g.nTotal + 1 } } w = stored [] s w := by
    unfold stored; rw [hpd]
  refine ⟨V, ?_, hv, Or.inr a3⟩
  unfold JJ
  simp only [a3]
  refine ⟨a2, by simp only [a7]; exact h.c0nv, h.nv, h.run, h.len, h.val, h.above, h.maxR, by
    simp only [a3]; simp, ?_, h.cvn, by rw [hst]; exact h.mem, by rw [hst]; exact h.one, ?_, ?_, ?_, h.vis, ?_⟩
  · have := h.stage; cases w <;> exact this
  · rw [hst]; intro hD; have := h.num hD; simp only; omega
  · rw [hst]; intro hD; have := h.le hD; simp only; omega
  · intro hn
    have hs := h.snap hn
    exact ⟨hs.val, hs.above, by rw [hpd]; exact hs.sub, hs.le⟩
  · intro ht
    have t := h.tot ht
    exact ⟨t.two, Nat.le_succ_of_le t.rare, fun _ => a5, t.trees, t.tmp, t.room⟩

section
variable (hK : K.Lawful) (S : Sizing)
include hK

/-- The part of the precondition of `flush`. -/
def Ready (S : Sizing) (c : JC) (e : Edge) (s : BG K) (w : WPC K.T) : Prop :=
  JJ S c s w ∧ e ∉ s.g.c0.live ∧ (c.tot → S.maxsz (max s.g.nv s.g.nTotal) 0 ≤ s.g.c0.live.length)

theorem Ready_stable (c : JC) (e : Edge) : Stable (worker K S) (Ready (K := K) S c e) := by
  rintro s w s' w' ⟨h, h1, h2⟩ hw
  obtain ⟨f1, f2, f3, _⟩ := wstep_frame hw
  exact ⟨JJ_stable hK S _ _ _ _ _ h hw, by rw [f1]; exact h1, by rw [f1, f2, f3]; exact h2⟩

theorem ReadyIdle_stable (c : JC) (e : Edge) :
    Stable (worker K S) (fun s w => Ready (K := K) S c e s w ∧ s.needs = false) := by
  rintro s w s' w' ⟨h, h1⟩ hw
  exact ⟨Ready_stable hK S c e _ _ _ _ h hw, (wstep_frame hw).2.2.2.2.2.2 h1⟩

theorem flush_ok (c : JC) {e : Edge} (he : InRange c.n e) :
    Ok (worker K S) (good S c.tot) (c.tot ∧ c.cm) (flush e) (fun s w => Ready S c e s w ∧ s.needs = false)
      (fun _ s w => AddPost S c e s w) := by
  refine Ok.bind (R := fun _ => Prep S c e) _ ?_ (fun _ => Ok.bind (R := fun _ => Mid S c e) _ ?_ (fun _ => ?_))
  · refine Ok.modify _ (ReadyIdle_stable hK S c e) ?_ ?_ ?_ (Prep_stable hK S c e)
    · intro s w ⟨⟨h, _⟩, hn⟩; exact no_conflict_idle (h.stage.idle hn).1
    · intro _ s w ⟨⟨h, _⟩, hn⟩
      exact ⟨_, by unfold prepare; rw [h.c0wf.converted_eq]; rfl⟩
    · intro s w s' ⟨⟨h, h1, h2⟩, hn⟩ hs; exact h.prepare hn h1 h2 hs
  · refine Ok.modify _ (Prep_stable hK S c e) (fun _ _ _ => no_conflict_none) (fun _ _ _ _ => ⟨_, rfl⟩) ?_
      (Mid_stable hK S c e)
    intro s w s' h hs
    cases hs
    exact h.start he
  · refine Ok.modify _ (Mid_stable hK S c e) (fun _ w _ => no_conflict_private (by simp) w) ?_ ?_
      (AddPost_stable hK S c e)
    · intro _ s w ⟨V, h, _⟩
      obtain ⟨b, a1, _⟩ := h.c0wf.clean_ok
      exact ⟨_, by unfold cleanup; rw [a1]; rfl⟩
    · intro s w s' h hs; exact h.cleanup hs

theorem addFull_ok (wv : Bool) (c : JC) {e : Edge} (he : InRange c.n e) :
    Ok (worker K S) (good S c.tot) (c.tot ∧ c.cm) (addFull wv S e) (Ready S c e) (fun _ s w => AddPost S c e s w) := by
  unfold addFull
  cases wv with
  | true =>
    rw [if_pos rfl]
    refine Ok.wait _ (Ready_stable hK S c e) ?_ (flush_ok hK S c he)
    intro s w h hn
    exact ⟨h, by simpa using hn⟩
  | false =>
    rw [if_neg Bool.false_ne_true]
    refine Ok.bind (R := fun nd s w => Ready S c e s w ∧ (nd = false → s.needs = false)) _ ?_ ?_
    · refine Ok.read _ (Ready_stable hK S c e) (fun _ _ _ => no_conflict_none) (fun _ _ _ _ => ⟨_, rfl⟩) ?_ ?_
      · intro s w b h hb; cases hb; exact ⟨h, id⟩
      · rintro b s w s' w' ⟨h, h1⟩ hw
        exact ⟨Ready_stable hK S c e _ _ _ _ h hw, fun hb => (wstep_frame hw).2.2.2.2.2.2 (h1 hb)⟩
    · intro nd
      cases nd with
      | true =>
        rw [if_pos rfl]
        refine Ok.pre _ (P := Ready S c e) ?_ ?_ (fun _ _ h => h.1)
        · refine Ok.modify _ (Ready_stable hK S c e) (fun _ w _ => no_conflict_private (by simp) w) ?_ ?_
            (AddPost_stable hK S c e)
          · intro ht s w ⟨h, h1, _⟩; exact h.insertPending_total h1 ht
          · intro s w s' ⟨h, h1, _⟩ hs; exact h.insertPending he h1 hs
        · rintro s w s' w' ⟨h, h1⟩ hw
          exact ⟨Ready_stable hK S c e _ _ _ _ h hw, fun hb => (wstep_frame hw).2.2.2.2.2.2 (h1 hb)⟩
      | false =>
        rw [if_neg Bool.false_ne_true]
        refine Ok.pre _ (flush_ok hK S c he) ?_ (fun _ _ h => ⟨h.1, h.2 rfl⟩)
        rintro s w s' w' ⟨h, h1⟩ hw
        exact ⟨Ready_stable hK S c e _ _ _ _ h hw, fun hb => (wstep_frame hw).2.2.2.2.2.2 (h1 hb)⟩

theorem addEdge_ok (wv : Bool) (c : JC) {e : Edge} (he : InRange c.n e) :
    Ok (worker K S) (good S c.tot) (c.tot ∧ c.cm) (addEdge wv S e) (JJ S c) (fun _ s w => AddPost S c e s w) := by
  refine Ok.bind _ (contains_ok hK S c he (c.tot ∧ c.cm) id) ?_
  intro b
  have hst : Stable (worker K S) (fun s w => JJ S c s w ∧
      (b = true → e ∈ s.g.c0.live ∨ Seen s e) ∧ (b = false → e ∉ s.g.c0.live ∧ ¬ c.V e)) := by
    intro s w s' w' ⟨h, h1, h2⟩ hw
    refine ⟨JJ_stable hK S _ _ _ _ _ h hw, fun hb => (seen_stable hK S s w s' w' ⟨h, h1 hb⟩ hw).2, ?_⟩
    rw [(wstep_frame hw).1]; exact h2
  cases b with
  | true =>
    rw [if_pos rfl]
    refine Ok.ret _ hst ?_
    intro s w ⟨h, h1, _⟩
    have hv := h1 rfl
    have hG := J.seen_mem h hv
    refine ⟨fun e' => e' = e ∨ c.V e', ?_, Or.inl rfl, Or.inl (fun _ h => Or.inr h)⟩
    refine J.congr h rfl ?_ (fun _ h => Or.inl h) ?_ id
    · intro e'
      exact ⟨fun hh => hh.elim (fun hh => hh ▸ hG) id, Or.inr⟩
    · rintro e' (rfl | h2)
      · exact hv
      · exact h.vis e' h2
  | false =>
    rw [if_neg Bool.false_ne_true]
    refine Ok.bind (R := fun f s w => (JJ S c s w ∧ e ∉ s.g.c0.live) ∧
      (f = true → c.tot ∧ c.cm → s.g.c0.room S s.g.nTotal) ∧ (f = false → Ready S c e s w)) _ ?_ ?_
    · refine Ok.read _ hst (fun _ w _ => no_conflict_private (by simp) w) (fun _ _ _ _ => ⟨_, rfl⟩) ?_ ?_
      · intro s w f ⟨h, _, h1⟩ hf
        cases hf
        have hl := (h1 rfl).1
        refine ⟨⟨h, hl⟩, ?_, ?_⟩
        · intro hf ht
          have hsz := J.size_eq h ht
          simp only [fits, decide_eq_true_eq] at hf
          unfold C0.room
          rw [h.c0nv]
          omega
        · intro hf
          simp only [fits, decide_eq_false_iff_not] at hf
          rw [h.c0wf.size_eq] at hf
          exact ⟨h, hl, fun _ => by omega⟩
      · rintro f s w s' w' ⟨⟨h, h1⟩, h2, h3⟩ hw
        obtain ⟨f1, f2, f3, _⟩ := wstep_frame hw
        refine ⟨⟨JJ_stable hK S _ _ _ _ _ h hw, by rw [f1]; exact h1⟩, by rw [f1, f2]; exact h2, ?_⟩
        intro hf; exact Ready_stable hK S c e _ _ _ _ (h3 hf) hw
    · intro f
      have hst2 : Stable (worker K S) (fun s w => (JJ S c s w ∧ e ∉ s.g.c0.live) ∧
          (f = true → c.tot ∧ c.cm → s.g.c0.room S s.g.nTotal) ∧ (f = false → Ready S c e s w)) := by
        rintro s w s' w' ⟨⟨h, h1⟩, h2, h3⟩ hw
        obtain ⟨f1, f2, f3, _⟩ := wstep_frame hw
        refine ⟨⟨JJ_stable hK S _ _ _ _ _ h hw, by rw [f1]; exact h1⟩, by rw [f1, f2]; exact h2, ?_⟩
        intro hf; exact Ready_stable hK S c e _ _ _ _ (h3 hf) hw
      cases f with
      | true =>
        rw [if_pos rfl]
        refine Ok.modify _ hst2 (fun _ w _ => no_conflict_private (by simp) w) ?_ ?_ (AddPost_stable hK S c e)
        · intro ht s w ⟨⟨h, h1⟩, h2, _⟩; exact h.insert_total h1 (h2 rfl ht)
        · intro s w s' ⟨⟨h, h1⟩, _, _⟩ hs; exact h.insert he h1 hs
      | false =>
        rw [if_neg Bool.false_ne_true]
        exact Ok.pre _ (addFull_ok hK S wv c he) hst2 (fun _ _ h => h.2.2 rfl)

end

end BG
end DK2
