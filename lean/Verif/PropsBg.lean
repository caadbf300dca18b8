import Verif.BgLive
import Verif.BgFoot
import Verif.RealTab
/-!
# Properties C36-C38, C56, C57: `DKtree_background` and `DKtree_background_wait`

`wv = false` is `DKtree_background`, `wv = true` is `DKtree_background_wait`.  `BG.Reach wv K S n ops s w`: on
some schedule of the two threads, after the calls `ops` have returned, the object is `s` and the worker is at
`w`.  `Exec` ranges over all interleavings of a call with the worker.  "No merge pending" is `s.needs = false`
(`needs_work`).
-/

namespace DK2
open BG
open DK (inserts)
variable {K : K2Impl}

/-- On every schedule the call returns only values satisfying `Q`, and on some schedule it returns. -/
def Answers (S : Sizing) {α : Type} (p : BProg K α) (s : BG K) (w : WPC K.T) (Q : α → Prop) : Prop :=
  (∃ a s' w', Exec (worker K S) p s w (.ret a) s' w') ∧
    ∀ a s' w', Exec (worker K S) p s w (.ret a) s' w' → Q a

/-- No schedule of the call contains a data race with the worker. -/
def RaceFree (S : Sizing) {α : Type} (p : BProg K α) (s : BG K) (w : WPC K.T) : Prop :=
  ∀ p' s' w', Exec (worker K S) p s w p' s' w' → ¬ Race (worker K S) p' w'

/-! ## Concrete schedules -/

/-- One event of a concrete schedule: a worker step, or a user call with its own interleaving (`true` is a
caller step). -/
inductive Ev where
  | work
  | call (o : Op) (l : List Bool)

/-- The calls of a schedule. -/
def evOps : List Ev → List Op
  | [] => []
  | .work :: l => evOps l
  | .call o _ :: l => o :: evOps l

/-- The state after a schedule, if every call returns. -/
def play (wv : Bool) (K : K2Impl) (S : Sizing) : List Ev → BG K → WPC K.T → Option (BG K × WPC K.T)
  | [], s, w => some (s, w)
  | .work :: l, s, w => match wstep S s w with
    | .ok (s', w') => play wv K S l s' w'
    | _ => none
  | .call o b :: l, s, w => match schedRet (worker K S) b (BG.call wv S o) s w with
    | some (_, s', w') => play wv K S l s' w'
    | none => none

theorem play_reach {wv : Bool} {S : Sizing} {n : Nat} : ∀ (l : List Ev) {ops : List Op} {s s' : BG K}
    {w w' : WPC K.T}, Reach wv K S n ops s w → play wv K S l s w = some (s', w') →
    Reach wv K S n (ops ++ evOps l) s' w' := by
  intro l
  induction l with
  | nil => intro ops s s' w w' h hp; simp only [play] at hp; cases hp; simpa [evOps] using h
  | cons ev l ih =>
    intro ops s s' w w' h hp
    cases ev with
    | work =>
      simp only [play] at hp
      split at hp
      · rename_i s1 w1 h1
        simpa [evOps] using ih (.work h h1) hp
      · cases hp
    | call o b =>
      simp only [play] at hp
      split at hp
      · rename_i x s1 w1 h1
        have := ih (.call h (schedRet_sound h1)) hp
        simpa [evOps] using this
      · cases hp

/-- The state after a schedule passes a test. -/
def playTest (wv : Bool) (S : Sizing) (n : Nat) (l : List Ev) (f : BG refK2 → WPC refK2.T → Bool) : Bool :=
  match play wv refK2 S l (init refK2 wv S n) .top with
  | some (s, w) => f s w
  | none => false

theorem playTest_sound {wv : Bool} {n : Nat} (hn : n ≠ 1) {l : List Ev} {f : BG refK2 → WPC refK2.T → Bool}
    (h : playTest wv hybSizing n l f = true) :
    ∃ s w, Reach wv refK2 realSizing n (evOps l) s w ∧ f s w = true := by
  rw [realSizing_eq_hyb]
  unfold playTest at h
  split at h
  · rename_i s w h1
    exact ⟨s, w, by simpa using play_reach l (.start hn) h1, h⟩
  · cases h

/-- A call that runs without interruption, in `k` steps. -/
def alone (o : Op) (k : Nat) : Ev := .call o (List.replicate k true)

/-- Two insertions on five vertices: the second hands both edges to the worker, which has not yet run. -/
def evHidden : List Ev := [alone (.add (0, 1)) 5, alone (.add (1, 2)) 8]

/-- The worker completes the merge. -/
def evDone : List Ev := evHidden ++ List.replicate 10 .work

/-- The hidden edge is inserted again, the merge completes, and the edge is deleted. -/
def evGhost : List Ev := evHidden ++ [alone (.add (0, 1)) 5] ++ List.replicate 10 .work ++
  [alone (.del (0, 1)) 1]

/-- One call after a schedule returns a value that passes a test. -/
def callTest {α : Type} (S : Sizing) (p : BProg refK2 α) (k : Nat) (f : α → Bool) (s : BG refK2)
    (w : WPC refK2.T) : Bool :=
  match schedRet (worker refK2 S) (List.replicate k true) p s w with
  | some (a, _, _) => f a
  | none => false

theorem callTest_sound {α : Type} {p : Sizing → BProg refK2 α} {k : Nat} {f : α → Bool} {s : BG refK2}
    {w : WPC refK2.T} (h : callTest hybSizing (p hybSizing) k f s w = true) :
    ∃ a s' w', Exec (worker refK2 realSizing) (p realSizing) s w (.ret a) s' w' ∧ f a = true := by
  rw [realSizing_eq_hyb]
  unfold callTest at h
  split at h
  · rename_i a s' w' h1
    exact ⟨a, s', w', schedRet_sound h1, h⟩
  · cases h

/-! ## C36 exact when idle -/

/-- C36: after every history of every schedule, when no merge is pending, `contains` and `list_neighbour`
report exactly the edges of the history. -/
def C36_Full (wv : Bool) : Prop :=
  ∀ K : K2Impl, K.Lawful → ∀ n ops (s : BG K) w, OpsInRange n ops → Reach wv K realSizing n ops s w →
    s.needs = false →
    (∀ e, InRange n e → Answers realSizing (contains e) s w (fun b => b = true ↔ specMem ops e)) ∧
    (∀ x, x < n → Answers realSizing (listNeighbour x) s w (fun l => ∀ y, y ∈ l ↔ specMem ops (x, y)))

/-- An edge inserted again while the worker holds it is stored twice; deleting it removes one copy. -/
theorem C36_refuted (wv : Bool) : ¬ C36_Full wv := by
  intro h
  have hx : playTest wv hybSizing 5 evGhost (fun s w => !s.needs &&
      callTest hybSizing (contains (0, 1)) 3 id s w) = true := by
    cases wv <;> decide +kernel
  obtain ⟨s, w, h1, h2⟩ := playTest_sound (by decide) hx
  rw [Bool.and_eq_true] at h2
  obtain ⟨b, s', w', h3, h4⟩ := callTest_sound (p := fun _ => contains (0, 1)) h2.2
  have h5 := (h refK2 refK2_lawful 5 _ s w (by decide) h1 (by simpa using h2.1)).1 (0, 1) (by decide)
  have h6 := (h5.2 b s' w' h3).1 h4
  revert h6
  decide

/-- Both classes count the edge twice. -/
theorem C36_count_refuted (wv : Bool) : ∃ (s : BG refK2) (w : WPC refK2.T),
    Reach wv refK2 realSizing 5 [.add (0, 1), .add (1, 2), .add (0, 1)] s w ∧ s.needs = false ∧
      s.numberEdges = 3 := by
  have hx : playTest wv hybSizing 5 (evHidden ++ [alone (.add (0, 1)) 5] ++ List.replicate 10 .work)
      (fun s _ => !s.needs && decide (s.numberEdges = 3)) = true := by
    cases wv <;> decide +kernel
  obtain ⟨s, w, h1, h2⟩ := playTest_sound (by decide) hx
  rw [Bool.and_eq_true] at h2
  exact ⟨s, w, h1, by simpa using h2.1, by simpa using h2.2⟩

/-- On every history and schedule, when no merge is pending: no inserted edge is missing, and an edge that is not
in the graph is reported only if it was deleted after having been inserted while present. -/
theorem C36_no_loss_partial (hK : K.Lawful) (S : Sizing) (wv : Bool) {n : Nat} {ops : List Op} {s : BG K}
    {w : WPC K.T} (ho : OpsInRange n ops) (hr : Reach wv K S n ops s w) (hi : s.needs = false) :
    (∀ e, InRange n e → Answers S (contains e) s w
      (fun b => (specMem ops e → b = true) ∧ (b = true → specMem ops e ∨ Ghost ops e))) ∧
    (∀ x, x < n → Answers S (listNeighbour x) s w (fun l => ∀ y,
      (specMem ops (x, y) → y ∈ l) ∧ (y ∈ l → specMem ops (x, y) ∨ Ghost ops (x, y)))) := by
  obtain ⟨c, hc⟩ := hr.track hK ho
  have hn := hc.n
  refine ⟨fun e he => ⟨?_, ?_⟩, fun x hx => ⟨?_, ?_⟩⟩
  · obtain ⟨a, s', h1⟩ := Ok.returns_alone (contains_ok hK S c (hn ▸ he) True (tg := False) False.elim)
      (contains_noWait e) hc.inv
    exact ⟨a, s', w, h1⟩
  · intro b s' w' hx
    have := contains_idle hK S (hn ▸ he) hc.inv hi hx
    exact ⟨fun h => this.2 (hc.keep e h), fun h => hc.only e (this.1 h)⟩
  · obtain ⟨a, s', h1⟩ := Ok.returns_alone (listNeighbour_ok hK S c (hn ▸ hx) True (tg := False) False.elim)
      (listNeighbour_noWait x) ⟨hc.inv, hi⟩
    exact ⟨a, s', w, h1⟩
  · intro l s' w' he y
    have := ((listNeighbour_ok hK S c (hn ▸ hx) True (tg := False) False.elim).post _ ⟨hc.inv, hi⟩ he).2.1 y
    exact ⟨fun h => this.2 (hc.keep _ h), fun h => hc.only _ (this.1 h)⟩

/-- If no edge is inserted while present, then on every schedule, when no merge is pending, everything is exact;
the edge count is exact even while a merge is pending. -/
theorem C36_no_readd_partial (hK : K.Lawful) (S : Sizing) (wv : Bool) {n : Nat} {ops : List Op} {s : BG K}
    {w : WPC K.T} (ho : OpsInRange n ops) (hr : Reach wv K S n ops s w) (hno : ∀ e, ¬ ReAdded ops e) :
    (∃ l : List Edge, l.Nodup ∧ (∀ e, e ∈ l ↔ specMem ops e) ∧ s.numberEdges = l.length) ∧
    (s.needs = false →
      (∀ e, InRange n e → Answers S (contains e) s w (fun b => b = true ↔ specMem ops e)) ∧
      (∀ x, x < n → Answers S (listNeighbour x) s w (fun l => l.Nodup ∧ ∀ y, y ∈ l ↔ specMem ops (x, y)))) := by
  have hgh : ∀ e, ¬ Ghost ops e := by
    rintro e ⟨pre, post, h1, p1, p2, h2, h3⟩
    exact hno e ⟨p1, p2 ++ Op.del e :: post, by rw [h1, h2]; simp, h3⟩
  obtain ⟨c, hc⟩ := hr.track hK ho
  have hD : ∀ e, ¬ c.D e := fun e h => hno e (hc.D e h)
  have hG : ∀ e, c.G e ↔ specMem ops e := fun e =>
    ⟨fun h => (hc.only e h).resolve_right (hgh e), hc.keep e⟩
  refine ⟨⟨stored s.g.c0.live s w, nodup_of_count (fun e => hc.inv.one e (hD e)), ?_, ?_⟩, fun hi => ?_⟩
  · intro e; rw [← hG e]; exact (hc.inv.mem e).symm
  · exact (hc.inv.num hD).symm
  · obtain ⟨h1, h2⟩ := C36_no_loss_partial hK S wv ho hr hi
    refine ⟨fun e he => ⟨(h1 e he).1, fun b s' w' hx => ?_⟩, fun x hx => ⟨(h2 x hx).1, fun l s' w' hx' => ?_⟩⟩
    · obtain ⟨h3, h4⟩ := (h1 e he).2 b s' w' hx
      exact ⟨fun h => (h4 h).resolve_right (hgh e), h3⟩
    · refine ⟨((listNeighbour_ok hK S c (hc.n ▸ hx) True (tg := False) False.elim).post _ ⟨hc.inv, hi⟩ hx').2.2 hD,
        fun y => ?_⟩
      obtain ⟨h3, h4⟩ := (h2 x hx).2 l s' w' hx' y
      exact ⟨fun h => (h4 h).resolve_right (hgh _), h3⟩

/-- A caller that makes every modifying call while no merge is pending sees an exact graph, on every history. -/
theorem C36_calm_partial (hK : K.Lawful) (S : Sizing) (wv : Bool) {n : Nat} {ops : List Op} {s : BG K}
    {w : WPC K.T} (ho : OpsInRange n ops) (hr : Calm wv K S n ops s w) :
    (∃ l : List Edge, l.Nodup ∧ (∀ e, e ∈ l ↔ specMem ops e) ∧ s.numberEdges = l.length) ∧
    (s.needs = false →
      (∀ e, InRange n e → Answers S (contains e) s w (fun b => b = true ↔ specMem ops e)) ∧
      (∀ x, x < n → Answers S (listNeighbour x) s w (fun l => l.Nodup ∧ ∀ y, y ∈ l ↔ specMem ops (x, y)))) := by
  obtain ⟨c, hn, ht, hD, hJ, hG⟩ := hr.track hK S ho
  refine ⟨⟨stored s.g.c0.live s w, nodup_of_count (fun e => hJ.one e (hD e)), ?_, ?_⟩, fun hi => ⟨?_, ?_⟩⟩
  · intro e; rw [← hG e]; exact (hJ.mem e).symm
  · exact (hJ.num hD).symm
  · intro e he
    refine ⟨?_, ?_⟩
    · obtain ⟨a, s', h1⟩ := Ok.returns_alone (contains_ok hK S c (hn ▸ he) True (tg := False) False.elim)
        (contains_noWait e) hJ
      exact ⟨a, s', w, h1⟩
    · intro b s' w' hx
      rw [← hG e]
      exact contains_idle hK S (hn ▸ he) hJ hi hx
  · intro x hx
    refine ⟨?_, ?_⟩
    · obtain ⟨a, s', h1⟩ := Ok.returns_alone (listNeighbour_ok hK S c (hn ▸ hx) True (tg := False) False.elim)
        (listNeighbour_noWait x) ⟨hJ, hi⟩
      exact ⟨a, s', w, h1⟩
    · intro l s' w' he
      obtain ⟨_, h1, h2⟩ := (listNeighbour_ok hK S c (hn ▸ hx) True (tg := False) False.elim).post _ ⟨hJ, hi⟩ he
      exact ⟨h2 hD, fun y => by rw [← hG]; exact h1 y⟩

/-- Non-vacuity: a schedule with a completed merge, after which nothing is pending and a level is in use. -/
example : ∃ (s : BG refK2) (w : WPC refK2.T),
    Reach false refK2 realSizing 5 [.add (0, 1), .add (1, 2)] s w ∧ s.needs = false ∧ s.g.maxR = 2 ∧
      OpsInRange 5 [.add (0, 1), .add (1, 2)] ∧ ∀ e, ¬ ReAdded [.add (0, 1), .add (1, 2)] e := by
  obtain ⟨s, w, h1, h2⟩ := playTest_sound (wv := false) (n := 5) (by decide) (l := evDone)
    (f := fun s _ => !s.needs && decide (s.g.maxR = 2)) (by decide +kernel)
  rw [Bool.and_eq_true] at h2
  refine ⟨s, w, h1, by simpa using h2.1, by simpa using h2.2, by decide, ?_⟩
  rintro e ⟨pre, post, h3, h4⟩
  match pre, h3 with
  | [], _ => exact specMem_nil _ h4
  | [_], h3 =>
    simp at h3
    obtain ⟨rfl, rfl, _⟩ := h3
    revert h4; decide
  | _ :: _ :: [], h3 => simp at h3
  | _ :: _ :: _ :: _, h3 => simp at h3

/-- In the schedule every call is made while nothing is pending. -/
def calmEv (wv : Bool) (K : K2Impl) (S : Sizing) : List Ev → BG K → WPC K.T → Bool
  | [], _, _ => true
  | .work :: l, s, w => match wstep S s w with
    | .ok (s', w') => calmEv wv K S l s' w'
    | _ => false
  | .call o b :: l, s, w => !s.needs && match schedRet (worker K S) b (BG.call wv S o) s w with
    | some (_, s', w') => calmEv wv K S l s' w'
    | none => false

theorem play_calm {wv : Bool} {S : Sizing} {n : Nat} : ∀ (l : List Ev) {ops : List Op} {s s' : BG K}
    {w w' : WPC K.T}, Calm wv K S n ops s w → calmEv wv K S l s w = true → play wv K S l s w = some (s', w') →
    Calm wv K S n (ops ++ evOps l) s' w' := by
  intro l
  induction l with
  | nil => intro ops s s' w w' h _ hp; simp only [play] at hp; cases hp; simpa [evOps] using h
  | cons ev l ih =>
    intro ops s s' w w' h hc hp
    cases ev with
    | work =>
      simp only [play] at hp
      split at hp
      · rename_i s1 w1 h1
        simp only [calmEv, h1] at hc
        simpa [evOps] using ih (.work h h1) hc hp
      · cases hp
    | call o b =>
      simp only [play] at hp
      split at hp
      · rename_i x s1 w1 h1
        simp only [calmEv, h1, Bool.and_eq_true] at hc
        have := ih (.call h (by simpa using hc.1) (schedRet_sound h1)) hc.2 hp
        simpa [evOps] using this
      · cases hp

/-- Non-vacuity of `C36_calm_partial`: an edge inserted twice, a merge, a deletion. -/
example : ∃ (s : BG refK2) (w : WPC refK2.T),
    Calm false refK2 realSizing 5 [.add (0, 1), .add (1, 2), .add (0, 1), .del (0, 1)] s w ∧ s.needs = false ∧
      s.numberEdges = 1 := by
  have hx : (match play false refK2 hybSizing (evDone ++ [alone (.add (0, 1)) 3, alone (.del (0, 1)) 8])
      (init refK2 false hybSizing 5) .top with
    | some (s, _) => !s.needs && decide (s.numberEdges = 1)
    | none => false) = true := by decide +kernel
  rw [realSizing_eq_hyb]
  split at hx
  · rename_i s w h1
    rw [Bool.and_eq_true] at hx
    exact ⟨s, w, play_calm (ops := []) _ (.start (by decide)) (by decide +kernel) h1, by simpa using hx.1,
      by simpa using hx.2⟩
  · cases hx

/-! ## C37 exact while a merge is pending -/

/-- C37: on every schedule, at every moment, `contains` is true for every edge in the graph. -/
def C37_Full (wv : Bool) : Prop :=
  ∀ K : K2Impl, K.Lawful → ∀ n ops (s : BG K) w, OpsInRange n ops → Reach wv K realSizing n ops s w →
    ∀ e, InRange n e → specMem ops e → Answers realSizing (contains e) s w (fun b => b = true)

/-- The buffered edge of `evHidden` is invisible until the worker is done. -/
theorem C37_refuted (wv : Bool) : ¬ C37_Full wv := by
  intro h
  have hx : playTest wv hybSizing 5 evHidden (fun s w => callTest hybSizing (contains (0, 1)) 3 (fun b => !b) s w) =
      true := by
    cases wv <;> decide +kernel
  obtain ⟨s, w, h1, h2⟩ := playTest_sound (by decide) hx
  obtain ⟨b, s', w', h3, h4⟩ := callTest_sound (p := fun _ => contains (0, 1)) h2
  have h5 := (h refK2 refK2_lawful 5 _ s w (by decide) h1 (0, 1) (by decide) (by decide)).2 b s' w' h3
  rw [h5] at h4
  cases h4

/-- On every history and schedule, at every moment: `contains` returns, it is true only for edges of the graph or
edges deleted after having been inserted while present, and once true it stays true until the next
modification, whatever the worker does. -/
theorem C37_sound_partial (hK : K.Lawful) (S : Sizing) (wv : Bool) {n : Nat} {ops : List Op} {s : BG K}
    {w : WPC K.T} (ho : OpsInRange n ops) (hr : Reach wv K S n ops s w) {e : Edge} (he : InRange n e) :
    Answers S (contains e) s w (fun b => b = true → specMem ops e ∨ Ghost ops e) ∧
    (∀ s' w', Exec (worker K S) (contains e) s w (.ret true) s' w' →
      Answers S (contains e) s' w' (fun b => b = true)) := by
  obtain ⟨c, hc⟩ := hr.track hK ho
  have he' : InRange c.n e := hc.n ▸ he
  have hok := contains_ok hK S c he' True (tg := False) False.elim
  refine ⟨⟨?_, ?_⟩, ?_⟩
  · obtain ⟨a, s', h1⟩ := Ok.returns_alone hok (contains_noWait e) hc.inv
    exact ⟨a, s', w, h1⟩
  · intro b s' w' hx hb
    obtain ⟨h1, h2, _⟩ := hok.post _ hc.inv hx
    exact hc.only e (J.seen_mem h1 (h2 hb))
  · intro s' w' hx
    obtain ⟨h1, h2, _⟩ := hok.post _ hc.inv hx
    refine ⟨?_, fun b s2 w2 hx2 => seen_again hK S he' h1 (h2 rfl) hx2⟩
    obtain ⟨a, s2, h3⟩ := Ok.returns_alone hok (contains_noWait e) h1
    exact ⟨a, s2, w', h3⟩

/-- The edge inserted last is visible at once, on every history and schedule. -/
theorem C37_last_partial (hK : K.Lawful) (S : Sizing) (wv : Bool) {n : Nat} {ops : List Op} {e : Edge} {s : BG K}
    {w : WPC K.T} (ho : OpsInRange n (ops ++ [.add e])) (hr : Reach wv K S n (ops ++ [.add e]) s w) :
    Answers S (contains e) s w (fun b => b = true) := by
  obtain ⟨c, hc⟩ := hr.track hK ho
  have he' : InRange c.n e := hc.n ▸ ho (.add e) (by simp)
  have hok := contains_ok hK S c he' True (tg := False) False.elim
  refine ⟨?_, ?_⟩
  · obtain ⟨a, s', h1⟩ := Ok.returns_alone hok (contains_noWait e) hc.inv
    exact ⟨a, s', w, h1⟩
  · intro b s' w' hx
    obtain ⟨_, _, h2⟩ := hok.post _ hc.inv hx
    cases b with
    | true => rfl
    | false => exact absurd (hc.last ops e rfl) (h2 rfl).2

/-- Non-vacuity: a reachable state with a merge pending. -/
example (wv : Bool) : ∃ (s : BG refK2) (w : WPC refK2.T),
    Reach wv refK2 realSizing 5 ([.add (0, 1)] ++ [.add (1, 2)]) s w ∧ s.needs = true := by
  have hx : playTest wv hybSizing 5 evHidden (fun s _ => s.needs) = true := by cases wv <;> decide +kernel
  obtain ⟨s, w, h1, h2⟩ := playTest_sound (by decide) hx
  exact ⟨s, w, h1, h2⟩

/-! ## C38 data races -/

/-- C38: no call of the user races with the worker, on any history and schedule. -/
def C38_Full (wv : Bool) : Prop :=
  ∀ K : K2Impl, K.Lawful → ∀ n ops (s : BG K) w, OpsInRange n ops → Reach wv K realSizing n ops s w →
    (∀ o : Op, InRange n o.edge → RaceFree realSizing (BG.call wv realSizing o) s w) ∧
    (∀ e, InRange n e → RaceFree realSizing (contains e) s w) ∧
    (∀ x, x < n → RaceFree realSizing (listNeighbour x) s w)

/-- The next stretch of the caller conflicts with the next step of the worker. -/
def raceB {α : Type} : BProg refK2 α → WPC refK2.T → Bool
  | .act acc _ _, w => acc.wr.any (fun l => (wacc w).rd.contains l || (wacc w).wr.contains l) ||
      acc.rd.any (fun l => (wacc w).wr.contains l)
  | _, _ => false

theorem raceB_sound {α : Type} {S : Sizing} {p : BProg refK2 α} {w : WPC refK2.T} (h : raceB p w = true) :
    Race (worker refK2 S) p w := by
  cases p with
  | act acc f k =>
    simp only [raceB, Bool.or_eq_true, List.any_eq_true] at h
    rcases h with ⟨l, h1, h2⟩ | ⟨l, h1, h2⟩
    · exact Or.inl ⟨l, h1, (by simpa using h2 : l ∈ (wacc w).rd ∨ l ∈ (wacc w).wr)⟩
    · exact Or.inr ⟨l, h1, (by simpa using h2 : l ∈ (wacc w).wr)⟩
  | ret a => cases h
  | wait c k => cases h

/-- While the worker raises `max_r`, `list_neighbour` reads it. -/
theorem C38_refuted (wv : Bool) : ¬ C38_Full wv := by
  intro h
  have hx : playTest wv hybSizing 5 (evHidden ++ [.work, .work, .work]) (fun s w =>
      schedTest (worker refK2 hybSizing) [true, true] (listNeighbour 0) s w (fun p _ w => raceB p w)) = true := by
    cases wv <;> decide +kernel
  obtain ⟨s, w, h1, h2⟩ := playTest_sound (by decide) hx
  obtain ⟨p', s', w', h3, h4⟩ := schedTest_sound h2
  refine (h refK2 refK2_lawful 5 _ s w (by decide) h1).2.2 0 (by decide) p' s' w' ?_ (raceB_sound h4)
  rw [realSizing_eq_hyb]; exact h3

/-- On every history and schedule, insertions, deletions and membership queries are free of data races, and so
is `list_neighbour` if no merge is pending when it starts. -/
theorem C38_partial (hK : K.Lawful) (S : Sizing) (wv : Bool) {n : Nat} {ops : List Op} {s : BG K}
    {w : WPC K.T} (ho : OpsInRange n ops) (hr : Reach wv K S n ops s w) :
    (∀ o : Op, InRange n o.edge → RaceFree S (BG.call wv S o) s w) ∧
    (∀ e, InRange n e → RaceFree S (contains e) s w) ∧
    (∀ x, x < n → s.needs = false → RaceFree S (listNeighbour x) s w) := by
  obtain ⟨c, hc⟩ := hr.track hK ho
  have hn := hc.n
  refine ⟨fun o h p' s' w' hx => ?_, fun e h p' s' w' hx => ?_, fun x h hi p' s' w' hx => ?_⟩
  · rw [← hn] at h
    cases o with
    | add e => exact (addEdge_ok hK S wv c h).norace _ hc.inv hx
    | del e => exact (delEdge_ok hK S wv c hc.tot h).norace _ hc.inv hx
  · exact (contains_ok hK S c (hn ▸ h) True (tg := False) False.elim).norace _ hc.inv hx
  · exact (listNeighbour_ok hK S c (hn ▸ h) True (tg := False) False.elim).norace _ ⟨hc.inv, hi⟩ hx

/-- The accesses compared by `Race` are complete: every stretch of every call and every worker step changes only
members it declares as written and depends only on members it declares, the flags and the constant number of
vertices. -/
theorem C38_accesses (S : Sizing) (wv : Bool) :
    (∀ o : Op, Footed (BG.call wv S o : BProg K Unit)) ∧ (∀ e, Footed (contains e : BProg K Bool)) ∧
    (∀ x, Footed (listNeighbour x : BProg K (List Nat))) ∧
    (∀ w : WPC K.T, Within (wacc w) (fun s => wstep S s w)) :=
  ⟨call_foot wv S, contains_foot, listNeighbour_foot, worker_foot S⟩

/-! ## C56 insertions never fail -/

/-- C56: if only insertions are made, then at every moment of every schedule neither the next step of the caller
nor the next step of the worker fails (no exception, no undefined behaviour), and from every moment of a call
some continuation brings it to its end. -/
theorem C56_insertions (hK : K.Lawful) {S : Sizing} (hT : S.Top) (wv : Bool) {n : Nat} (h2 : 2 ≤ n)
    {es : List Edge} (he : ∀ e ∈ es, InRange n e) {s : BG K} {w : WPC K.T}
    (hr : Reach wv K S n (inserts es) s w) {e : Edge} (hi : InRange n e) {p : BProg K Unit} {s' : BG K}
    {w' : WPC K.T} (hx : Exec (worker K S) (addEdge wv S e) s w p s' w') :
    ¬ CBad p s' ∧ (∃ r, wstep S s' w' = .ok r) ∧ ¬ Race (worker K S) p w' ∧
      ∃ s2 w2, Exec (worker K S) p s' w' (.ret ()) s2 w2 := by
  obtain ⟨c, hc⟩ := hr.trackI hK h2 rfl he
  have hok := addEdge_ok hK S wv c (hc.n ▸ hi)
  obtain ⟨c', lv, cv, x, hJ, ht⟩ := hok.inv _ hc.inv hx
  refine ⟨hok.nobad _ ⟨hc.tot, hc.cm⟩ hc.inv hx, hJ.wok hK hT (ht hc.tot), hok.norace _ hc.inv hx, ?_⟩
  obtain ⟨P', h3, h4⟩ := hok.exec _ hc.inv hx
  obtain ⟨_, s2, w2, h5⟩ := Ok.returns hK hT ⟨hc.tot, hc.cm⟩ hc.tot h3 ((addEdge_waits wv S e).exec hx) h4
  exact ⟨s2, w2, h5⟩

/-- With the thresholds of the code. -/
theorem C56_insertions_real (hK : K.Lawful) (wv : Bool) {n : Nat} (h2 : 2 ≤ n)
    {es : List Edge} (he : ∀ e ∈ es, InRange n e) {s : BG K} {w : WPC K.T}
    (hr : Reach wv K realSizing n (inserts es) s w) {e : Edge} (hi : InRange n e) {p : BProg K Unit} {s' : BG K}
    {w' : WPC K.T} (hx : Exec (worker K realSizing) (addEdge wv realSizing e) s w p s' w') :
    ¬ CBad p s' ∧ (∃ r, wstep realSizing s' w' = .ok r) ∧ ¬ Race (worker K realSizing) p w' ∧
      ∃ s2 w2, Exec (worker K realSizing) p s' w' (.ret ()) s2 w2 :=
  C56_insertions hK realSizing_top wv h2 he hr hi hx

/-- Every insertion history runs to its end on some schedule (so the theorems above are not vacuous). -/
theorem C56_reachable (hK : K.Lawful) {S : Sizing} (hT : S.Top) (wv : Bool) {n : Nat} (h2 : 2 ≤ n)
    (es : List Edge) (he : ∀ e ∈ es, InRange n e) : ∃ s w, Reach wv K S n (inserts es) s w := by
  induction es using List.reverseRecOn with
  | nil => exact ⟨_, _, .start (by omega)⟩
  | append_singleton es e ih =>
    obtain ⟨s, w, hr⟩ := ih (fun e' h => he e' (by simp [h]))
    obtain ⟨_, _, _, s2, w2, h3⟩ := C56_insertions hK hT wv h2 (fun e' h => he e' (by simp [h])) hr
      (he e (by simp)) .start
    refine ⟨s2, w2, ?_⟩
    have : inserts (es ++ [e]) = inserts es ++ [Op.add e] := by simp [inserts]
    rw [this]
    exact .call (o := .add e) hr h3

/-! ## C57 merges finish -/

/-- C57: whenever a merge is pending, on any history, `RS + 7 = 15` steps of the worker suffice to finish it,
unless the worker ends the program with its "collection too big" exception; after insertions only, it
always finishes.  Hence every busy wait ends. -/
theorem C57_merge_finishes (hK : K.Lawful) (S : Sizing) (wv : Bool) {n : Nat} {ops : List Op} {s : BG K}
    {w : WPC K.T} (ho : OpsInRange n ops) (hr : Reach wv K S n ops s w) (hp : s.needs = true) :
    ∃ k, k ≤ 15 ∧ ((∃ s' w', wrun S k s w = .ok (s', w') ∧ s'.needs = false) ∨ wrun S k s w = .throws) := by
  obtain ⟨c, hc⟩ := hr.track hK ho
  obtain ⟨k, h1, h2⟩ := wrun_done hK (rank w) s w hc.inv hp (Nat.le_refl _)
  refine ⟨k, Nat.le_trans h1 (rank_le hc.inv.stage), ?_⟩
  rcases h2 with ⟨s', w', h3, _, h4⟩ | ⟨h3, _⟩
  · exact Or.inl ⟨s', w', h3, h4⟩
  · exact Or.inr h3

theorem C57_insertions (hK : K.Lawful) {S : Sizing} (hT : S.Top) (wv : Bool) {n : Nat} (h2 : 2 ≤ n)
    {es : List Edge} (he : ∀ e ∈ es, InRange n e) {s : BG K} {w : WPC K.T}
    (hr : Reach wv K S n (inserts es) s w) (hp : s.needs = true) :
    ∃ k s' w', k ≤ 15 ∧ wrun S k s w = .ok (s', w') ∧ s'.needs = false := by
  obtain ⟨c, hc⟩ := hr.trackI hK h2 rfl he
  obtain ⟨k, h1, h3⟩ := wrun_done hK (rank w) s w hc.inv hp (Nat.le_refl _)
  rcases h3 with ⟨s', w', h3, _, h4⟩ | ⟨_, h3⟩
  · exact ⟨k, s', w', Nat.le_trans h1 (rank_le hc.inv.stage), h3, h4⟩
  · exact absurd ⟨hT, hc.tot⟩ h3

end DK2
