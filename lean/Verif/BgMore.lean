import Verif.PropsBg
import Verif.PropsSer
/-!
# Destructor and serialization of `DKtree_background` and `DKtree_background_wait` (C58, C59)

Line numbers are those of `DKtree_background.hpp`; `w:` marks lines of `DKtree_background_wait.hpp`.
-/

namespace DK2
namespace BG
variable {K : K2Impl}

/-- `~DKtree_background()` (106-109; w:121-135): wait until no merge is pending, clear `run`.  Afterwards the
members are destroyed; the detached thread (124; w:153) is not joined. -/
def destroy : BProg K Unit :=
  .wait (fun s => !s.needs) (.modify .none (fun s => .ok { s with run := false }))

/-- The next step of the worker touches the object.  The flags are members of `DKtree_background` (98) and
globals of `DKtree_background_wait` (w:35). -/
def touches (wv : Bool) : WPC K.T → Bool
  | .top => !wv
  | .test => !wv
  | .build => true
  | .search _ => true
  | .merge _ _ _ => true
  | .store _ _ => true
  | .finish => !wv
  | .stopped => false

/-- `oa << *this` (319-325 called from 338; w:360-366, w:379): the stream gets `max_r`, the counters and the buffer. -/
def saveHdr : BProg K (Option Hdr) :=
  .read ⟨[.maxR, .nTotal, .c0], []⟩ (fun s => s.g.serialize (Dir.empty K) >>= fun d => .ok d.hdr)

/-- The part of `serialize` after the header (343-352; w:384-393): the wait for the merge, then the levels `≤ max_r`. -/
def saveLevels (h : Option Hdr) (d : Dir K) : BProg K (Dir K) :=
  .wait (fun s => !s.needs) (.read ⟨[.levels, .maxR], []⟩ (fun s => .ok ⟨h, s.g.writeLevels d⟩))

/-- `serialize(out, dir)` (336-353; w:377-394). -/
def serialize (d : Dir K) : BProg K (Dir K) := saveHdr.bind fun h => saveLevels h d

end BG

open BG
open DK (inserts)
variable {K : K2Impl}

/-! ## C58 the destructor stops the worker -/

/-- C58: on every history and schedule, once the destructor has returned the worker never touches the object
again. -/
def C58_Full (wv : Bool) : Prop :=
  ∀ K : K2Impl, K.Lawful → ∀ n ops (s : BG K) w, OpsInRange n ops → Reach wv K realSizing n ops s w →
    ∀ s' w', Exec (worker K realSizing) destroy s w (.ret ()) s' w' →
    ∀ k s2 w2, wrun realSizing k s' w' = .ok (s2, w2) → touches wv w2 = false

/-- What holds when the destructor has returned: the worker is outside the merge, and stays outside. -/
def Over (s : BG K) (w : WPC K.T) : Prop := s.needs = false ∧ s.run = false ∧ (w = .top ∨ w = .test ∨ w = .stopped)

theorem Over.step {S : Sizing} {s s' : BG K} {w w' : WPC K.T} (h : Over s w) (hs : wstep S s w = .ok (s', w')) :
    Over s' w' := by
  obtain ⟨h1, h2, rfl | rfl | rfl⟩ := h <;> simp only [wstep, h1, h2] at hs <;> cases hs <;>
    exact ⟨h1, h2, by simp⟩

theorem Over.run {S : Sizing} : ∀ (k : Nat) {s s' : BG K} {w w' : WPC K.T}, Over s w →
    wrun S k s w = .ok (s', w') → Over s' w' := by
  intro k
  induction k with
  | zero => intro s s' w w' h hs; simp only [wrun] at hs; cases hs; exact h
  | succ k ih =>
    intro s s' w w' h hs
    simp only [wrun] at hs
    rw [Res.bind_eq_ok] at hs
    obtain ⟨⟨s1, w1⟩, h1, h2⟩ := hs
    exact ih (h.step h1) h2

/-- The destructor returns only when the worker is outside the merge. -/
theorem destroy_over (hK : K.Lawful) (S : Sizing) (wv : Bool) {n : Nat} {ops : List Op} {s s' : BG K}
    {w w' : WPC K.T} (ho : OpsInRange n ops) (hr : Reach wv K S n ops s w)
    (hx : Exec (worker K S) destroy s w (.ret ()) s' w') : Over s' w' := by
  obtain ⟨c, hc⟩ := hr.track hK ho
  have hst : Stable (worker K S) (fun s w => JJ S c s w ∧ s.needs = false) := by
    intro s w s' w' h hs
    exact ⟨JJ_stable hK S c _ _ _ _ h.1 hs, (wstep_frame hs).2.2.2.2.2.2 h.2⟩
  have hok : Ok (worker K S) (fun _ _ => True) False (destroy : BProg K Unit) (JJ S c) (fun _ s w => Over s w) := by
    refine Ok.wait (P' := fun s w => JJ S c s w ∧ s.needs = false) _ (JJ_stable hK S c)
      (fun s w h hn => ⟨h, by simpa using hn⟩) ?_ (fun _ _ _ => trivial)
    refine Ok.modify _ hst (fun _ _ _ => no_conflict_none) (fun h => h.elim) ?_ ?_ (fun _ _ _ => trivial)
      (fun _ _ _ => trivial)
    · intro s w s' h hs
      cases hs
      exact ⟨h.2, rfl, (h.1.stage.idle h.2).1.imp_right Or.inl⟩
    · intro s w s' w' h hs
      exact h.step hs
  exact hok.post _ hc.inv hx

/-- The destructor always returns on some schedule (if only insertions were made). -/
theorem C58_returns (hK : K.Lawful) {S : Sizing} (hT : S.Top) (wv : Bool) {n : Nat} (h2 : 2 ≤ n)
    {es : List Edge} (he : ∀ e ∈ es, InRange n e) {s : BG K} {w : WPC K.T}
    (hr : Reach wv K S n (inserts es) s w) :
    ∃ s' w', Exec (worker K S) destroy s w (.ret ()) s' w' := by
  have key : ∀ (s : BG K) (w : WPC K.T), s.needs = false → ∃ s' w', Exec (worker K S) destroy s w (.ret ()) s' w' :=
    fun s w hn => ⟨_, _, .caller (.caller .start (.pass (by simp [hn]))) (.act rfl)⟩
  cases hn : s.needs with
  | false => exact key s w hn
  | true =>
    obtain ⟨k, s', w', _, h3, h4⟩ := C57_insertions hK hT wv h2 he hr hn
    obtain ⟨s2, w2, h5⟩ := key s' w' h4
    exact ⟨s2, w2, (Exec_wrun k h3).trans h5⟩

/-- C58 for `DKtree_background_wait`. -/
theorem C58_wait : C58_Full true := by
  intro K hK n ops s w ho hr s' w' hx k s2 w2 hw
  obtain ⟨_, _, rfl | rfl | rfl⟩ := (destroy_over hK realSizing true ho hr hx).run k hw <;> rfl

/-- In `DKtree_background` the flags are members: the worker reads `run` in the destroyed object. -/
theorem C58_refuted : ¬ C58_Full false := by
  intro h
  have hr : Reach false refK2 realSizing 2 [] (init refK2 false realSizing 2) .top := .start (by decide)
  have hx := (schedRet_sound (W := worker refK2 realSizing) (l := [true, true]) (p := destroy)
    (s := init refK2 false realSizing 2) (w := .top) (a := ()) (s' := { init refK2 false realSizing 2 with run := false })
    (w' := .top) rfl)
  exact absurd (h refK2 refK2_lawful 2 [] _ _ (by intro o h; cases h) hr _ _ hx 0 _ _ rfl) (by decide)

/-- In both classes, on every history and schedule, after the destructor the worker touches no plain member –
at most the flags – and its thread function returns after at most two of its own steps. -/
theorem C58_partial (hK : K.Lawful) (S : Sizing) (wv : Bool) {n : Nat} {ops : List Op} {s s' : BG K}
    {w w' : WPC K.T} (ho : OpsInRange n ops) (hr : Reach wv K S n ops s w)
    (hx : Exec (worker K S) destroy s w (.ret ()) s' w') :
    (∀ k s2 w2, wrun S k s' w' = .ok (s2, w2) → wacc w2 = .none ∧ touches true w2 = false) ∧
    (∃ s2, wrun S 2 s' w' = .ok (s2, .stopped)) ∧ ∀ k s2, wrun S k s' .stopped = .ok (s2, .stopped) → s2 = s' := by
  have ho := destroy_over hK S wv ho hr hx
  refine ⟨fun k s2 w2 hw => ?_, ?_, ?_⟩
  · obtain ⟨_, _, rfl | rfl | rfl⟩ := ho.run k hw <;> exact ⟨rfl, rfl⟩
  · obtain ⟨h1, h2, rfl | rfl | rfl⟩ := ho <;> simp [wrun, wstep, h1, h2]
  · intro k
    induction k with
    | zero => intro s2 h; simp only [wrun] at h; cases h; rfl
    | succ k ih =>
      intro s2 h
      simp only [wrun, wstep, Res.ok_bind] at h
      exact ih s2 h

/-- Non-vacuity: the destructor is called while a merge is pending, waits for it and returns. -/
example (wv : Bool) : ∃ (s : BG refK2) (w : WPC refK2.T), Reach wv refK2 realSizing 5 [.add (0, 1), .add (1, 2)] s w ∧
    s.needs = true ∧ ∃ s' w', Exec (worker refK2 realSizing) destroy s w (.ret ()) s' w' := by
  have hx : playTest wv hybSizing 5 evHidden (fun s _ => s.needs) = true := by cases wv <;> decide +kernel
  obtain ⟨s, w, h1, h2⟩ := playTest_sound (by decide) hx
  exact ⟨s, w, h1, h2, C58_returns refK2_lawful realSizing_top wv (by decide) (es := [(0, 1), (1, 2)]) (by decide) h1⟩

/-! ## C59 serialization of a graph in use -/

/-- C59: on every insertion history and every schedule, loading what `serialize` wrote into an empty directory gives
a graph with exactly the inserted edges. -/
def C59_Full (wv : Bool) : Prop :=
  ∀ K : K2Impl, K.Lawful → ∀ n es (s : BG K) w, (∀ e ∈ es, InRange n e) → Reach wv K realSizing n (inserts es) s w →
    ∀ d s' w', Exec (worker K realSizing) (serialize (Dir.empty K)) s w (.ret d) s' w' →
    ∃ g', (DK.blank K).load realSizing d = .ok g' ∧
      ∀ e, InRange n e → (g'.contains e = .ok true ↔ specMem (inserts es) e)

/-- The archive loads into a graph that reports the edge missing. -/
def lostB (S : Sizing) (d : Dir refK2) (e : Edge) : Bool :=
  match (DK.blank refK2).load S d with
  | .ok g => match g.contains e with
    | .ok b => !b
    | _ => false
  | _ => false

/-- The header is written before the merge is awaited: it says `max_r = 0` and an empty buffer, while the merge puts the edges
into level 2, which `load` does not read. -/
theorem C59_refuted (wv : Bool) : ¬ C59_Full wv := by
  intro h
  have hx : playTest wv hybSizing 5 evHidden (fun s w =>
      match schedRet (worker refK2 hybSizing) ([true] ++ List.replicate 10 false ++ [true, true])
        (serialize (Dir.empty refK2)) s w with
      | some (d, _, _) => lostB hybSizing d (0, 1)
      | none => false) = true := by
    cases wv <;> decide +kernel
  obtain ⟨s, w, h1, h2⟩ := playTest_sound (by decide) hx
  split at h2
  · rename_i d s' w' h3
    obtain ⟨g', h4, h5⟩ := h refK2 refK2_lawful 5 [(0, 1), (1, 2)] s w (by decide) h1 d s' w'
      (by rw [realSizing_eq_hyb]; exact schedRet_sound h3)
    have h6 := (h5 (0, 1) (by decide)).2 (by decide)
    unfold lostB at h2
    rw [← realSizing_eq_hyb, h4] at h2
    simp only [h6] at h2
    cases h2
  · cases h2

/-- The header read of `max_r` races with the worker. -/
theorem C59_race_refuted (wv : Bool) : ∃ (s : BG refK2) (w : WPC refK2.T),
    Reach wv refK2 realSizing 5 (inserts [(0, 1), (1, 2)]) s w ∧
      ¬ RaceFree realSizing (serialize (Dir.empty refK2)) s w := by
  have hx : playTest wv hybSizing 5 (evHidden ++ [.work, .work, .work]) (fun _ w =>
      raceB (serialize (Dir.empty refK2)) w) = true := by
    cases wv <;> decide +kernel
  obtain ⟨s, w, h1, h2⟩ := playTest_sound (by decide) hx
  exact ⟨s, w, h1, fun h => h _ _ _ .start (raceB_sound h2)⟩

/-- The value of a program that only reads, run in the state `s`. -/
def evalAt {σ L α : Type} : Prog σ L α → σ → Option α
  | .ret a, _ => some a
  | .act _ f k, s => match f s with
    | .ok (_, b) => evalAt (k b) s
    | _ => none
  | .wait c k, s => if c s then evalAt k s else none

/-- The program changes nothing when run in the state `s`. -/
def ReadsOnly {σ L α : Type} : Prog σ L α → σ → Prop
  | .ret _, _ => True
  | .act _ f k, s => ∀ s' b, f s = .ok (s', b) → s' = s ∧ ReadsOnly (k b) s
  | .wait _ k, s => ReadsOnly k s

theorem ReadsOnly.read {σ L α β : Type} {acc : Acc L} {f : σ → Res β} {k : β → Prog σ L α} {s : σ}
    (h : ∀ b, f s = .ok b → ReadsOnly (k b) s) : ReadsOnly ((Prog.read acc f).bind k) s := by
  intro s' b hf
  rw [Res.bind_eq_ok] at hf
  obtain ⟨b', h1, h2⟩ := hf
  cases h2
  exact ⟨rfl, h _ h1⟩

/-- Nothing is pending and the worker is outside the merge. -/
def Quiet (s : BG K) (w : WPC K.T) : Prop := s.needs = false ∧ s.run = true ∧ (w = .top ∨ w = .test)

theorem Quiet.step {S : Sizing} {s s' : BG K} {w w' : WPC K.T} (h : Quiet s w) (hs : wstep S s w = .ok (s', w')) :
    s' = s ∧ Quiet s w' := by
  obtain ⟨h1, h2, rfl | rfl⟩ := h <;> simp only [wstep, h1, h2] at hs <;> cases hs <;>
    exact ⟨rfl, h1, h2, by simp⟩

theorem Quiet.exec {S : Sizing} {α : Type} {p p' : BProg K α} {s s' : BG K} {w w' : WPC K.T} (h : Quiet s w)
    (hr : ReadsOnly p s) (hx : Exec (worker K S) p s w p' s' w') :
    s' = s ∧ Quiet s w' ∧ ReadsOnly p' s ∧ evalAt p' s = evalAt p s := by
  induction hx with
  | start => exact ⟨rfl, h, hr, rfl⟩
  | caller _ hs ih =>
    obtain ⟨rfl, h1, h2, h3⟩ := ih
    cases hs with
    | act hf =>
      obtain ⟨h4, h5⟩ := h2 _ _ hf
      refine ⟨h4, h1, h5, ?_⟩
      rw [← h3]; simp only [evalAt, hf]
    | pass hc => exact ⟨rfl, h1, h2, by rw [← h3]; simp only [evalAt, hc, if_true]⟩
  | worker _ hs ih =>
    obtain ⟨rfl, h1, h2, h3⟩ := ih
    obtain ⟨h4, h5⟩ := h1.step hs
    exact ⟨h4, h5, h2, h3⟩

theorem evalAt_exec {S : Sizing} {α : Type} {p : BProg K α} {s : BG K} {w : WPC K.T} {a : α} (hr : ReadsOnly p s)
    (he : evalAt p s = some a) : Exec (worker K S) p s w (.ret a) s w := by
  induction p with
  | ret b => simp only [evalAt, Option.some.injEq] at he; subst he; exact .start
  | act acc f k ih =>
    simp only [evalAt] at he
    split at he
    · rename_i s' b hf
      obtain ⟨rfl, h2⟩ := hr _ _ hf
      exact Exec.trans (.caller .start (.act hf)) (ih b h2 he)
    · cases he
  | wait c k ih =>
    simp only [evalAt] at he
    split at he
    · rename_i hc
      exact Exec.trans (.caller .start (.pass hc)) (ih hr he)
    · cases he

/-- With nothing pending a reading call returns its sequential value, on every schedule and without race. -/
theorem Quiet.answers {S : Sizing} {α : Type} {p : BProg K α} {s : BG K} {w : WPC K.T} {a : α} {Q : α → Prop}
    (h : Quiet s w) (hr : ReadsOnly p s) (he : evalAt p s = some a) (hq : Q a) :
    RaceFree S p s w ∧ Answers S p s w Q := by
  refine ⟨fun p' s' w' hx hrace => ?_, ⟨a, s, w, evalAt_exec hr he⟩, fun b s' w' hx => ?_⟩
  · obtain ⟨_, ⟨_, _, h3⟩, _⟩ := h.exec hr hx
    cases p' with
    | ret a => exact hrace
    | act acc f k => exact no_conflict_idle h3 hrace
    | wait c k => exact hrace
  · obtain ⟨_, _, _, h4⟩ := h.exec hr hx
    rw [he] at h4
    simp only [evalAt, Option.some.injEq] at h4
    exact h4 ▸ hq

theorem contains_readsOnly (e : Edge) (s : BG K) : ReadsOnly (contains e) s :=
  .read fun b _ => by
    cases b with
    | true => rw [if_pos rfl]; trivial
    | false =>
      rw [if_neg Bool.false_ne_true]
      refine .read fun nd _ => ?_
      cases nd with
      | true => exact ReadsOnly.read (k := .ret) fun _ _ => trivial
      | false => exact ReadsOnly.read (k := .ret) fun _ _ => trivial

theorem listNeighbour_readsOnly (x : Nat) (s : BG K) : ReadsOnly (listNeighbour x) s :=
  .read fun b _ => .read fun nd _ => by
    cases nd with
    | true => exact .read fun _ _ => trivial
    | false => exact .read fun _ _ => trivial

theorem serialize_readsOnly (d : Dir K) (s : BG K) : ReadsOnly (serialize d) s := by
  refine .read fun h _ => ?_
  unfold saveLevels
  rw [ReadsOnly]
  exact ReadsOnly.read (k := .ret) fun _ _ => trivial

/-- With nothing pending, `contains` and `list_neighbour` answer as those of `DKtree` on the same contents. -/
theorem quiet_queries {S : Sizing} {s : BG K} {w : WPC K.T} (h : Quiet s w) (hw : s.g.c0.WF) (ha : s.g.NoneAbove) :
    (∀ e, Answers S (contains e) s w (fun b => s.g.contains e = .ok b)) ∧
    (∀ x, Answers S (listNeighbour x) s w (fun l => s.g.listNeighbour x = .ok l)) := by
  have h1 := h.1
  refine ⟨fun e => ?_, fun x => ?_⟩
  · have hc := hw.contains_eq e
    cases hb : decide (e ∈ s.g.c0.live) with
    | true =>
      rw [hb] at hc
      refine (h.answers (contains_readsOnly e s) (a := true) ?_ ?_).2
      · simp [contains, Prog.read, Prog.bind, evalAt, hc]
      · simp [DK.contains, hc]
    | false =>
      rw [hb] at hc
      refine (h.answers (contains_readsOnly e s) (a := DK.treesContain K e s.g.ks) ?_ ?_).2
      · simp [contains, containsTrees, readNeeds, Prog.read, Prog.bind, evalAt, hc, h1, DK.treesContain_take ha]
      · simp [DK.contains, hc]
  · have hc := hw.listNeighbours_eq x
    refine (h.answers (listNeighbour_readsOnly x s) (a := ((s.g.c0.live.filter (fun e => decide (e.1 = x))).map (·.2)).reverse ++ DK.treesNeigh K x (s.g.ks.take (s.g.maxR + 1))) ?_ ?_).2
    · simp [listNeighbour, readNeeds, Prog.read, Prog.bind, evalAt, hc, h1]
    · simp [DK.listNeighbour, hc]

theorem Track.quiet (hK : K.Lawful) {S : Sizing} {n : Nat} {ops : List Op} {c : JC} {s : BG K} {w : WPC K.T}
    (h : Track S n ops c s w) (hi : s.needs = false) : Quiet s w ∧ s.g.WInv ∧ s.g.NoneAbove := by
  have hJ := h.inv
  refine ⟨⟨hi, hJ.run, (hJ.stage.idle hi).1⟩, ⟨hJ.c0wf, hJ.c0nv, hJ.len, ?_, hJ.maxR, ?_⟩, hJ.above⟩
  · rw [hJ.nv]; exact hJ.val
  · rw [hJ.nv]
    intro e he
    rcases List.mem_append.1 he with he | he
    · exact hJ.rangeC e he
    · obtain ⟨t, h1, h2⟩ := DK.mem_flat.1 he
      exact hK.edges_range _ t (hJ.val t h1) e h2

/-- If no merge is pending when `serialize` starts and the buffer holds no erased slot (as after any insertion
history), then on every history and schedule `serialize` returns and is free of data races, and what it wrote loads into a graph that answers like
the original. -/
theorem C59_idle_partial (hK : K.Lawful) (S S' : Sizing) (wv : Bool) {n : Nat} {ops : List Op} {s : BG K}
    {w : WPC K.T} (ho : OpsInRange n ops) (hr : Reach wv K S n ops s w) (hi : s.needs = false)
    (hm : s.g.c0.marked = 0) (E : K2Eq K) :
    RaceFree S (serialize (Dir.empty K)) s w ∧
    Answers S (serialize (Dir.empty K)) s w (fun d => ∃ g', (DK.blank K).load S' d = .ok g' ∧
      g'.numberEdges = s.numberEdges ∧ g'.numberNodes = n ∧
      (∀ e, InRange n e → Answers S (contains e) s w (fun b => g'.contains e = .ok b)) ∧
      (∀ x, x < n → Answers S (listNeighbour x) s w (fun l => g'.listNeighbour x = .ok l))) := by
  obtain ⟨c, hc⟩ := hr.track hK ho
  obtain ⟨hq, hw, ha⟩ := Track.quiet hK hc hi
  have hnv : s.g.nv = n := hc.inv.nv.trans hc.n
  obtain ⟨d, g', a1, a2, a3, a4, a5, a6, a7, a8, a9, _⟩ := load_serialized S' hw hm (d := Dir.empty K)
    (x := DK.blank K) (by show (List.replicate RS none).length = RS; simp) (fun _ _ _ => rfl)
    (by
      intro l hl _
      have := hw.maxR_lt
      show (List.replicate RS none)[l]? = _
      rw [List.getElem?_replicate]; rw [if_pos (by omega)]) E
  have hdk : ⟨d.hdr, s.g.writeLevels (Dir.empty K)⟩ = d := by
    have := DK.serialize_ok hw (Dir.empty K) hm
    rw [a1] at this
    cases this
    rfl
  refine hq.answers (serialize_readsOnly _ s) (a := d) ?_ ⟨g', a2, a6, a7.trans hnv, fun e he => ?_, fun x hx => ?_⟩
  · simp [serialize, saveHdr, saveLevels, Prog.read, Prog.bind, evalAt, a1, hi, hdk]
  · have ha' : g'.NoneAbove := by
      intro i t hit
      by_contra hlt
      have h1 : (g'.ks.drop (s.g.maxR + 1))[i - (s.g.maxR + 1)]? = some (some t) := by
        rw [List.getElem?_drop]
        rw [show s.g.maxR + 1 + (i - (s.g.maxR + 1)) = i from by rw [a5] at hlt; omega]
        exact hit
      rw [a4, List.getElem?_drop] at h1
      have : (DK.blank K).ks = List.replicate RS none := rfl
      rw [this, List.getElem?_replicate] at h1
      split at h1 <;> simp at h1
    have hcc : g'.contains e = s.g.contains e := by
      unfold DK.contains
      rw [a9 e, ← DK.treesContain_take ha e, ← DK.treesContain_take ha' e, a5, a3]
    rw [hcc]
    exact (quiet_queries hq hw.c0wf ha).1 e
  · rw [a8 x]
    exact (quiet_queries hq hw.c0wf ha).2 x

/-- C59 for insertion histories when no merge is pending at the start: the loaded graph has exactly the inserted
edges.  Missing: a pending merge (`C59_refuted`). -/
theorem C59_insert_partial (hK : K.Lawful) (S S' : Sizing) (wv : Bool) {n : Nat} (h2 : 2 ≤ n) {es : List Edge} {s : BG K}
    {w : WPC K.T} (he : ∀ e ∈ es, InRange n e) (hr : Reach wv K S n (inserts es) s w) (hi : s.needs = false)
    (E : K2Eq K) :
    Answers S (serialize (Dir.empty K)) s w (fun d => ∃ g', (DK.blank K).load S' d = .ok g' ∧
      ∀ e, InRange n e → (g'.contains e = .ok true ↔ e ∈ es) ∧ ∃ b, g'.contains e = .ok b) := by
  have ho : OpsInRange n (inserts es) := by
    intro o hoo
    obtain ⟨e, h1, rfl⟩ := List.mem_map.1 hoo
    exact he e h1
  obtain ⟨c, hc⟩ := hr.trackI hK h2 rfl he
  obtain ⟨h3, h4⟩ := (C59_idle_partial hK S S' wv ho hr hi ((hc.inv.tot hc.tot).c0m hc.cm) E).2
  refine ⟨h3, fun d s' w' hx => ?_⟩
  obtain ⟨g', h5, _, _, h6, _⟩ := h4 d s' w' hx
  refine ⟨g', h5, fun e hee => ?_⟩
  obtain ⟨⟨b, s1, w1, h7⟩, h8⟩ := h6 e hee
  have h9 := ((C36_no_loss_partial hK S wv ho hr hi).1 e hee).2 b s1 w1 h7
  have hsp : specMem (inserts es) e ↔ e ∈ es := by
    rw [specMem_iff_specRun, DK.specRun_inserts]
  have hng : ¬ Ghost (inserts es) e := by
    rintro ⟨pre, post, h1, _⟩
    have : Op.del e ∈ inserts es := by rw [h1]; simp
    obtain ⟨e', _, h⟩ := List.mem_map.1 this
    cases h
  rw [h8 b s1 w1 h7]
  refine ⟨?_, b, rfl⟩
  rw [← hsp]
  constructor
  · intro hb; cases hb; exact (h9.2 rfl).resolve_right hng
  · intro hm; rw [h9.1 hm]

/-- Non-vacuity: a merge completed, three edges, one of them buffered. -/
example (wv : Bool) : ∃ (s : BG refK2) (w : WPC refK2.T),
    Reach wv refK2 realSizing 5 (inserts [(0, 1), (1, 2), (3, 4)]) s w ∧ s.needs = false ∧ s.g.maxR = 2 ∧
      s.g.c0.live = [(3, 4)] ∧ s.g.c0.marked = 0 := by
  have hx : playTest wv hybSizing 5 (evDone ++ [alone (.add (3, 4)) 5]) (fun s _ =>
      decide (s.needs = false ∧ s.g.maxR = 2 ∧ s.g.c0.live = [(3, 4)] ∧ s.g.c0.marked = 0)) = true := by
    cases wv <;> decide +kernel
  obtain ⟨s, w, h1, h2⟩ := playTest_sound (by decide) hx
  exact ⟨s, w, h1, of_decide_eq_true h2⟩

/-! ### A merge pending at the start -/

/-- The edges in the files of a directory. -/
def InDir (d : Dir K) (e : Edge) : Prop :=
  (∃ h, d.hdr = some h ∧ e ∈ h.edges) ∨ ∃ l t, d.kt l = some t ∧ e ∈ K.edges t

theorem mem_writeLevels {g : DK K} (ha : g.NoneAbove) (e : Edge) :
    (∃ l t, g.writeLevels (Dir.empty K) l = some t ∧ e ∈ K.edges t) ↔ e ∈ DK.flat K g.ks := by
  rw [DK.mem_flat]
  constructor
  · rintro ⟨l, t, h1, h2⟩
    unfold DK.writeLevels at h1
    split at h1
    · split at h1
      · rename_i t' h3
        cases h1
        refine ⟨t, ?_, h2⟩
        cases h4 : g.ks[l]? with
        | none => rw [h4] at h3; cases h3
        | some o =>
          rw [h4] at h3
          cases o with
          | none => cases h3
          | some u => cases h3; exact List.mem_of_getElem? h4
      · cases h1
    · cases h1
  · rintro ⟨t, h1, h2⟩
    obtain ⟨l, hl⟩ := List.getElem?_of_mem h1
    refine ⟨l, t, ?_, h2⟩
    unfold DK.writeLevels
    rw [if_pos (ha l t hl), hl]
    rfl

theorem saveHdr_ok (hK : K.Lawful) {S : Sizing} {c : JC} {s : BG K} {w : WPC K.T} (h : JJ S c s w)
    (hm : s.g.c0.marked = 0) : ∃ d, s.g.serialize (Dir.empty K) = .ok d ∧
      d.hdr = some ⟨s.g.maxR, s.g.nv, s.g.nTotal, s.g.c0.nVertices, s.g.c0.maxEdges, s.g.c0.live⟩ := by
  refine ⟨_, DK.serialize_ok ⟨h.c0wf, h.c0nv, h.len, ?_, h.maxR, ?_⟩ _ hm, rfl⟩
  · rw [h.nv]; exact h.val
  · rw [h.nv]
    intro e he
    rcases List.mem_append.1 he with he | he
    · exact h.rangeC e he
    · obtain ⟨t, h1, h2⟩ := DK.mem_flat.1 he
      exact hK.edges_range _ t (h.val t h1) e h2

/-- The stages of `serialize`, with what holds in each of them. -/
def SerInv (S : Sizing) (c : JC) (d : Dir K) (c0 : C0) (p : BProg K (Dir K)) (s : BG K) (w : WPC K.T) : Prop :=
  JJ S c s w ∧ s.g.c0 = c0 ∧ (p = serialize d ∨
    ∃ h : Hdr, h.edges = c0.live ∧ (p = saveLevels (some h) d ∨
      (s.needs = false ∧ p = .read ⟨[.levels, .maxR], []⟩ (fun s => .ok ⟨some h, s.g.writeLevels d⟩)) ∨
      ∃ g : DK K, g.NoneAbove ∧ (∀ e, c.G e ↔ e ∈ c0.live ∨ e ∈ DK.flat K g.ks) ∧ p = .ret ⟨some h, g.writeLevels d⟩))

theorem SerInv.exec (hK : K.Lawful) {S : Sizing} {c : JC} {d : Dir K} {c0 : C0} (hm : c0.marked = 0) {p p' : BProg K (Dir K)}
    {s s' : BG K} {w w' : WPC K.T} (h : SerInv S c d c0 p s w) (hx : Exec (worker K S) p s w p' s' w') :
    SerInv S c d c0 p' s' w' := by
  induction hx with
  | start => exact h
  | worker _ hs ih =>
    obtain ⟨h1, h2, h3⟩ := ih
    have hf := wstep_frame hs
    refine ⟨JJ_stable hK S c _ _ _ _ h1 hs, hf.1.trans h2, ?_⟩
    rcases h3 with h3 | ⟨h, h4, h5 | ⟨h5, h6⟩ | h5⟩
    · exact Or.inl h3
    · exact Or.inr ⟨h, h4, Or.inl h5⟩
    · exact Or.inr ⟨h, h4, Or.inr (Or.inl ⟨hf.2.2.2.2.2.2 h5, h6⟩)⟩
    · exact Or.inr ⟨h, h4, Or.inr (Or.inr h5)⟩
  | caller _ hs ih =>
    obtain ⟨h1, h2, h3⟩ := ih
    rcases h3 with rfl | ⟨h, h4, rfl | ⟨h5, rfl⟩ | ⟨g, _, _, rfl⟩⟩
    · cases hs with
      | act hf =>
        obtain ⟨d', h6, h7⟩ := saveHdr_ok hK h1 (by rw [h2]; exact hm)
        simp only [h6, Res.ok_bind] at hf
        cases hf
        refine ⟨h1, h2, Or.inr ⟨_, ?_, Or.inl (by show saveLevels d'.hdr d = _; rw [h7])⟩⟩
        rw [h2]
    · cases hs with
      | pass hc => exact ⟨h1, h2, Or.inr ⟨h, h4, Or.inr (Or.inl ⟨by simpa using hc, rfl⟩)⟩⟩
    · cases hs with
      | act hf =>
        cases hf
        refine ⟨h1, h2, Or.inr ⟨h, h4, Or.inr (Or.inr ⟨_, h1.above, fun e => ?_, rfl⟩)⟩⟩
        rw [J.idle_seen h1 h5, h2]
    · cases hs

/-- C59, the files: on every insertion history and every schedule, also when a merge is pending at the start, `serialize` returns
on some schedule, and whenever it returns the files hold exactly the inserted edges.  Missing: they may lie in level files which
the header tells `load` not to read (`C59_refuted`). -/
theorem C59_saved_partial (hK : K.Lawful) {S : Sizing} (hT : S.Top) (wv : Bool) {n : Nat} (h2 : 2 ≤ n) {es : List Edge}
    {s : BG K} {w : WPC K.T} (he : ∀ e ∈ es, InRange n e) (hr : Reach wv K S n (inserts es) s w) :
    Answers S (serialize (Dir.empty K)) s w (fun d => ∀ e, InDir d e ↔ e ∈ es) := by
  obtain ⟨c, hc⟩ := hr.trackI hK h2 rfl he
  have hm := ((hc.inv.tot hc.tot).c0m hc.cm)
  constructor
  · obtain ⟨d', h6, h7⟩ := saveHdr_ok hK hc.inv hm
    have key : ∀ (s : BG K) (w : WPC K.T), s.needs = false → ∃ d s' w',
        Exec (worker K S) (saveLevels d'.hdr (Dir.empty K)) s w (.ret d) s' w' :=
      fun s w hn => ⟨_, _, _, .caller (.caller .start (.pass (by simp [hn]))) (.act rfl)⟩
    have h0 : Exec (worker K S) (serialize (Dir.empty K)) s w (saveLevels d'.hdr (Dir.empty K)) s w :=
      .caller .start (.act (b := d'.hdr) (by simp only [h6]; rfl))
    cases hn : s.needs with
    | false =>
      obtain ⟨d, s', w', h⟩ := key s w hn
      exact ⟨d, s', w', h0.trans h⟩
    | true =>
      obtain ⟨k, s', w', _, h3, h4⟩ := C57_insertions hK hT wv h2 he hr hn
      obtain ⟨d, s2, w2, h5⟩ := key s' w' h4
      exact ⟨d, s2, w2, h0.trans ((Exec_wrun k h3).trans h5)⟩
  · intro d s' w' hx
    obtain ⟨_, _, h | ⟨h, h4, h5 | ⟨_, h5⟩ | ⟨g, ha, hG, h5⟩⟩⟩ :=
      SerInv.exec hK hm ⟨hc.inv, rfl, Or.inl rfl⟩ hx
    · cases h
    · cases h5
    · cases h5
    · cases h5
      intro e
      rw [← hc.mem e, hG e]
      refine or_congr ⟨?_, fun h' => ⟨h, rfl, by rw [h4]; exact h'⟩⟩ (mem_writeLevels ha e)
      rintro ⟨h', hh, h8⟩
      cases hh
      rw [← h4]; exact h8

/-- C59, the level files: on every history and schedule the part of `serialize` after the header is free of data races, and when it
returns no merge is pending.  Missing: the header (`C59_race_refuted`). -/
theorem C59_levels_partial (hK : K.Lawful) (S : Sizing) (wv : Bool) {n : Nat} {ops : List Op} {s : BG K} {w : WPC K.T}
    (ho : OpsInRange n ops) (hr : Reach wv K S n ops s w) (h : Option Hdr) (d : Dir K) :
    RaceFree S (saveLevels h d) s w ∧ ∀ d' s' w', Exec (worker K S) (saveLevels h d) s w (.ret d') s' w' →
      s'.needs = false ∧ d' = ⟨h, s'.g.writeLevels d⟩ := by
  obtain ⟨c, hc⟩ := hr.track hK ho
  have hst : ∀ P : BG K → Prop, Stable (worker K S) (fun s w => JJ S c s w ∧ s.needs = false ∧ P s) := JJI_stable hK S c
  have hok : Ok (worker K S) (fun _ _ => True) False (saveLevels h d) (JJ S c)
      (fun d' s _ => s.needs = false ∧ d' = ⟨h, s.g.writeLevels d⟩) := by
    refine Ok.wait (P' := fun s w => JJ S c s w ∧ s.needs = false ∧ True) _ (JJ_stable hK S c)
      (fun s w h hn => ⟨h, by simpa using hn, trivial⟩) ?_ (fun _ _ _ => trivial)
    have hk : Ok (worker K S) (fun _ _ => True) False
        (Prog.read (⟨[.levels, .maxR], []⟩ : Acc _) (fun s : BG K => (.ok ⟨h, s.g.writeLevels d⟩ : Res (Dir K))))
        (fun s w => JJ S c s w ∧ s.needs = false ∧ True)
        (fun d' s w => JJ S c s w ∧ s.needs = false ∧ d' = ⟨h, s.g.writeLevels d⟩) := by
      refine Ok.read _ (hst _) (fun s w h => no_conflict_idle (h.1.stage.idle h.2.1).1) (fun h => h.elim) ?_ ?_
        (fun _ _ _ => trivial) (fun _ _ _ _ => trivial)
      · intro s w b hJ hb
        cases hb
        exact ⟨hJ.1, hJ.2.1, rfl⟩
      · intro b; exact hst _
    exact hk.conseq _ (fun _ _ _ h => ⟨h.2.1, h.2.2⟩)
  exact ⟨fun p' s' w' hx => hok.norace _ hc.inv hx, fun d' s' w' hx => hok.post _ hc.inv hx⟩

/-- Non-vacuity: `serialize` is called while a merge is pending. -/
example (wv : Bool) : ∃ (s : BG refK2) (w : WPC refK2.T), s.needs = true ∧
    Answers realSizing (serialize (Dir.empty refK2)) s w (fun d => ∀ e, InDir d e ↔ e ∈ [((0, 1) : Edge), (1, 2)]) := by
  have hx : playTest wv hybSizing 5 evHidden (fun s _ => s.needs) = true := by cases wv <;> decide +kernel
  obtain ⟨s, w, h1, h2⟩ := playTest_sound (by decide) hx
  exact ⟨s, w, h2, C59_saved_partial refK2_lawful realSizing_top wv (by decide) (by decide) h1⟩

end DK2
