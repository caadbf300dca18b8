import Verif.DelayProofs
import Verif.Calib
import Verif.Ser
/-!
# Property theorems: `DKtree_delay` (C32–C35, C48–C50)

`nd` is whether the program is compiled with `NDEBUG`.
-/

namespace DK2
open DK

variable {K : K2Impl}

/-- The graph answers every query exactly as the edge set `G` over `n` vertices: `contains`, `list_neighbour`
(each neighbour once), and the edge count. -/
structure DKD.Answers (d : DKD K) (n : Nat) (G : Edge → Prop) : Prop where
  contains : ∀ e, InRange n e → ∃ b, d.contains e = .ok b ∧ (b = true ↔ G e)
  neighbours : ∀ x, x < n → ∃ l, d.listNeighbour x = .ok l ∧ l.Nodup ∧ ∀ y, y ∈ l ↔ G (x, y)
  count : ∃ l : List Edge, l.Nodup ∧ (∀ e, e ∈ l ↔ G e) ∧ d.numberEdges = l.length

theorem DKD.answers_of (hK : K.Lawful) {d : DKD K} {n : Nat} {G : Edge → Prop} (hi : d.g.Inv)
    (ha : d.g.NoneAbove) (hm : ∀ e, e ∈ d.g.edgesOf ↔ G e) (hc : d.g.nTotal = d.g.edgesOf.length)
    (hn : d.g.nv = n) : d.Answers n G where
  contains := by
    intro e he
    refine ⟨_, hi.contains_eq hK (by rw [hn]; exact he), ?_⟩
    rw [decide_eq_true_eq, hm]
  neighbours := by
    intro x hx
    obtain ⟨l, h1, h2, h3⟩ := hi.listNeighbour hK ha (x := x) (by rw [hn]; exact hx)
    exact ⟨l, h1, h2, fun y => by rw [h3, hm]⟩
  count := ⟨d.g.edgesOf, hi.nodup, hm, hc⟩

/-- A concrete run under the real formulas, evaluated by the kernel. -/
theorem DKD.real_check {nd : Bool} {n : Nat} {ops : List Op} {f : DKD refK2 → Bool}
    (h : check (DKD.run nd refK2 hybSizing n ops) f = true) :
    ∃ d, DKD.run nd refK2 realSizing n ops = .ok d ∧ f d = true := by
  rw [realSizing_eq_hyb]; exact check_iff.1 h

/-! ## C32 queries while a merge is pending -/

/-- C32: after every insertion history that returns, whatever part of a merge is still pending, all queries are
exact. -/
def C32_Full : Prop :=
  ∀ (nd : Bool) (K : K2Impl), K.Lawful → ∀ (n : Nat) (es : List Edge) (d : DKD K), 2 ≤ n →
    (∀ e ∈ es, InRange n e) → DKD.run nd K realSizing n (inserts es) = .ok d → d.Answers n (fun e => e ∈ es)

/-- The 25 edges `(i/8, i%8)`. -/
def w25 : List Edge := (List.range 25).map (fun i => (i / 8, i % 8))

/-- Built with `NDEBUG` (as the repository's Makefile does), the 25th insertion on 8 vertices is counted and
dropped. -/
theorem C32_refuted : ¬ C32_Full := by
  intro h
  obtain ⟨d, hd, h1⟩ := DKD.real_check (nd := true) (n := 8) (ops := inserts w25)
    (f := fun d => decide (d.contains (3, 0) = .ok false)) (by decide +kernel)
  have ha := h true refK2 refK2_lawful 8 w25 d (by norm_num) (by decide) hd
  obtain ⟨b, h2, h3⟩ := ha.contains (3, 0) (by decide)
  rw [of_decide_eq_true h1] at h2
  cases h2
  have := h3.2 (by decide)
  cases this

/-- C32 with assertions enabled, for every threshold function: proved without restriction. -/
theorem C32_partial (hK : K.Lawful) {S : Sizing} (hT : S.Top) {n : Nat} (h2 : 2 ≤ n) {es : List Edge}
    (he : ∀ e ∈ es, InRange n e) {d : DKD K} (hr : DKD.run false K S n (inserts es) = .ok d) :
    d.Answers n (fun e => e ∈ es) := by
  obtain ⟨d', h1, h3, h4, h5, h6⟩ := DKD.run_inserts hK hT h2 he
  rcases h6 with ⟨h6, _⟩ | ⟨h6, h7, h8⟩
  · rw [h6] at hr; cases hr
  · rw [h6] at hr; cases hr
    exact DKD.answers_of hK h4.inv.inv h4.above h7 h8 h3

/-- For any thresholds with a large enough buffer, for 162 vertices or more, in both builds. -/
theorem DKD.large_answers (hK : K.Lawful) {S : Sizing} (hT : S.Top) (hc6 : ∀ {m : Nat}, 162 ≤ m → 6 ≤ S.maxsz m 0) (nd : Bool) {n : Nat} (h2 : 162 ≤ n) {es : List Edge}
    (he : ∀ e ∈ es, InRange n e) :
    ∃ d, DKD.run nd K S n (inserts es) = .ok d ∧ d.Answers n (fun e => e ∈ es) := by
  obtain ⟨d', h1, h3, h4, h5, h6⟩ := DKD.run_inserts hK hT (by omega) he
  rcases h6 with ⟨h6, m, hm, hc⟩ | ⟨h6, h7, h8⟩
  · have := hc6 (m := m) (by omega); omega
  · refine ⟨d', ?_, DKD.answers_of hK h4.inv.inv h4.above h7 h8 h3⟩
    cases nd
    · exact h6
    · exact h1

/-- C32 for 162 vertices or more, in both builds. -/
theorem C32_large_partial (hK : K.Lawful) (nd : Bool) {n : Nat} (h2 : 162 ≤ n) {es : List Edge}
    (he : ∀ e ∈ es, InRange n e) :
    ∃ d, DKD.run nd K realSizing n (inserts es) = .ok d ∧ d.Answers n (fun e => e ∈ es) :=
  DKD.large_answers hK realSizing_top realSizing_cap nd h2 he

/-- With `NDEBUG`, answers never contain an edge that was not inserted, on any insertion history, and the history
always returns. -/
theorem C32_sound_partial (hK : K.Lawful) {S : Sizing} (hT : S.Top) {n : Nat} (h2 : 2 ≤ n) {es : List Edge}
    (he : ∀ e ∈ es, InRange n e) :
    ∃ d, DKD.run true K S n (inserts es) = .ok d ∧
      (∀ e, InRange n e → d.contains e = .ok true → e ∈ es) ∧
      (∀ x, x < n → ∃ l, d.listNeighbour x = .ok l ∧ l.Nodup ∧
        ∀ y, y < n → (y ∈ l ↔ d.contains (x, y) = .ok true)) := by
  obtain ⟨d', h1, h3, h4, h5, h6⟩ := DKD.run_inserts hK hT h2 he
  refine ⟨d', h1, ?_, ?_⟩
  · intro e hr hc
    have := h4.inv.inv.contains_eq hK (e := e) (by rw [h3]; exact hr)
    unfold DKD.contains at hc
    rw [this] at hc
    exact h5 e (by simpa using hc)
  · intro x hx
    obtain ⟨l, a1, a2, a3⟩ := h4.inv.inv.listNeighbour hK h4.above (x := x) (by rw [h3]; exact hx)
    refine ⟨l, a1, a2, ?_⟩
    intro y hy
    unfold DKD.contains
    rw [a3, h4.inv.inv.contains_eq hK (e := (x, y)) (by rw [h3]; exact ⟨hx, hy⟩)]
    simp

/-- Non-vacuity: 24 insertions on 8 vertices end in a state with a merge pending, which answers exactly. -/
example : ∃ d, DKD.run false refK2 realSizing 8 (inserts (w25.take 24)) = .ok d ∧ d.workDone = false ∧
    d.Answers 8 (fun e => e ∈ w25.take 24) := by
  obtain ⟨d, hd, h1⟩ := DKD.real_check (nd := false) (n := 8) (ops := inserts (w25.take 24))
    (f := fun d => !d.workDone) (by decide +kernel)
  exact ⟨d, hd, by simpa using h1, C32_partial refK2_lawful realSizing_top (by norm_num) (by decide) hd⟩

/-! ## C33 the branch "cannot happen" -/

/-- C33: no insertion history reaches `assert(false)`. -/
def C33_Full : Prop :=
  ∀ (K : K2Impl), K.Lawful → ∀ (n : Nat) (es : List Edge), 2 ≤ n → (∀ e ∈ es, InRange n e) →
    DKD.run false K realSizing n (inserts es) ≠ .abort

theorem outcome_abort {α : Type} {r : Res α} : outcome r = .abort ↔ r = .abort := by
  cases r <;> simp [outcome]

/-- The 25th insertion on 8 vertices reaches it. -/
theorem C33_refuted : ¬ C33_Full := by
  intro h
  refine h refK2 refK2_lawful 8 w25 (by norm_num) (by decide) ?_
  rw [realSizing_eq_hyb, ← outcome_abort]
  decide +kernel

/-- What happens there in an `NDEBUG` build: `add_edge` returns, `get_number_edges` grows, and the edge is not in
the graph. -/
theorem C33_dropped : ∃ d d' : DKD refK2, DKD.run true refK2 realSizing 8 (inserts (w25.take 24)) = .ok d ∧
    d.addEdge true realSizing (3, 0) = .ok d' ∧ d'.numberEdges = d.numberEdges + 1 ∧
    d'.contains (3, 0) = .ok false := by
  obtain ⟨d, hd, h1⟩ := DKD.real_check (nd := true) (n := 8) (ops := inserts (w25.take 24))
    (f := fun d => check (d.addEdge true hybSizing (3, 0))
      (fun d' => decide (d'.numberEdges = d.numberEdges + 1) && decide (d'.contains (3, 0) = .ok false)))
    (by decide +kernel)
  obtain ⟨d', h2, h3⟩ := check_iff.1 h1
  rw [Bool.and_eq_true] at h3
  refine ⟨d, d', hd, ?_, of_decide_eq_true h3.1, of_decide_eq_true h3.2⟩
  rw [realSizing_eq_hyb]; exact h2

/-- C33 holds whenever the buffer capacity `MAXSZ(m,0)` is at least 6 for all sizes met: every insertion history
then returns. -/
theorem C33_capacity_partial (hK : K.Lawful) {S : Sizing} (hT : S.Top) {n : Nat} (h2 : 2 ≤ n)
    (hc : ∀ m, n ≤ m → 6 ≤ S.maxsz m 0) {es : List Edge} (he : ∀ e ∈ es, InRange n e) :
    ∃ d, DKD.run false K S n (inserts es) = .ok d := by
  obtain ⟨d', h1, h3, h4, h5, h6⟩ := DKD.run_inserts hK hT h2 he
  rcases h6 with ⟨h6, m, hm, hc'⟩ | ⟨h6, h7, h8⟩
  · have := hc m hm; omega
  · exact ⟨d', h6⟩

/-- C33 for 162 vertices or more. -/
theorem C33_large_partial (hK : K.Lawful) {n : Nat} (h2 : 162 ≤ n) {es : List Edge}
    (he : ∀ e ∈ es, InRange n e) : DKD.run false K realSizing n (inserts es) ≠ .abort := by
  obtain ⟨d, hd⟩ := C33_capacity_partial hK realSizing_top (n := n) (by omega)
    (fun m hm => realSizing_cap (by omega)) he
  rw [hd]; simp

/-- On any insertion history the only abnormal outcome is that assertion: no exception, no undefined
behaviour. -/
theorem C33_only_partial (hK : K.Lawful) {S : Sizing} (hT : S.Top) {n : Nat} (h2 : 2 ≤ n) {es : List Edge}
    (he : ∀ e ∈ es, InRange n e) :
    DKD.run false K S n (inserts es) = .abort ∨ ∃ d, DKD.run false K S n (inserts es) = .ok d := by
  obtain ⟨d', h1, h3, h4, h5, h6⟩ := DKD.run_inserts hK hT h2 he
  rcases h6 with ⟨h6, _⟩ | ⟨h6, _⟩
  · exact Or.inl h6
  · exact Or.inr ⟨_, h6⟩

/-! ## C34 pending merges finish -/

/-- `k` calls of the step with which `add_edge` begins (`if (!work_done()) union_delay()`). -/
def DKD.steps : Nat → DKD K → Res (DKD K)
  | 0, d => .ok d
  | k + 1, d => do
    let d' ← d.pre
    DKD.steps k d'

theorem DKD.DIns.steps (hK : K.Lawful) : ∀ (k : Nat) {d : DKD K}, d.DIns →
    ∃ d', DKD.steps k d = .ok d' ∧ d'.DIns ∧ d'.g.nv = d.g.nv ∧ d'.g.nTotal = d.g.nTotal ∧
      (∀ e, e ∈ d'.g.edgesOf ↔ e ∈ d.g.edgesOf) ∧ (d'.rem = 0 ∨ d'.rem + k ≤ d.rem) := by
  intro k
  induction k with
  | zero => intro d h; exact ⟨d, rfl, h, rfl, rfl, fun _ => Iff.rfl, Or.inr (by omega)⟩
  | succ k ih =>
    intro d h
    obtain ⟨d1, p0, p1, p2, p3, p4, p5, p6, p7⟩ := h.pre hK
    obtain ⟨d2, q0, q1, q2, q3, q4, q5⟩ := ih p1
    refine ⟨d2, ?_, q1, by rw [q2, p2], by rw [q3, p4], fun e => by rw [q4, p6], ?_⟩
    · simp only [DKD.steps, p0, Res.ok_bind, q0]
    · rcases q5 with h1 | h1
      · exact Or.inl h1
      · rcases p7 with h2 | h2
        · left; omega
        · right; omega

/-- C34: after any insertion history (in either build), `target level + 1` union steps complete the pending
merge, without error and without changing any answer. -/
theorem C34 (hK : K.Lawful) (nd : Bool) {S : Sizing} (hT : S.Top) {n : Nat} (h2 : 2 ≤ n) {es : List Edge}
    (he : ∀ e ∈ es, InRange n e) {d : DKD K} (hr : DKD.run nd K S n (inserts es) = .ok d) {k : Nat}
    (hk : d.ufinal + 1 ≤ k) :
    ∃ d', DKD.steps k d = .ok d' ∧ d'.workDone = true ∧ d'.numberEdges = d.numberEdges ∧
      ∀ e, InRange n e → d'.contains e = d.contains e := by
  obtain ⟨d0, h1, h3, h4, h5, h6⟩ := DKD.run_inserts hK hT h2 he
  have hd : d = d0 := by
    cases nd
    · rcases h6 with ⟨h6, _⟩ | ⟨h6, _⟩
      · rw [h6] at hr; cases hr
      · rw [h6] at hr; cases hr; rfl
    · rw [h1] at hr; cases hr; rfl
  subst hd
  obtain ⟨d', q0, q1, q2, q3, q4, q5⟩ := h4.steps hK k
  refine ⟨d', q0, ?_, q3, ?_⟩
  · have : d.rem ≤ d.ufinal + 1 := by unfold DKD.rem; omega
    have : d'.rem = 0 := by omega
    unfold DKD.rem at this
    simp only [DKD.workDone, decide_eq_true_eq]; omega
  · intro e he'
    unfold DKD.contains
    rw [q1.inv.inv.contains_eq hK (e := e) (by rw [q2, h3]; exact he'),
      h4.inv.inv.contains_eq hK (e := e) (by rw [h3]; exact he')]
    simp only [q4]

/-- Non-vacuity: a state with a pending merge whose target is level 4. -/
example : ∃ d, DKD.run false refK2 realSizing 8 (inserts (w25.take 24)) = .ok d ∧ d.workDone = false ∧
    2 ≤ d.ufinal := by
  obtain ⟨d, hd, h1⟩ := DKD.real_check (nd := false) (n := 8) (ops := inserts (w25.take 24))
    (f := fun d => !d.workDone && decide (2 ≤ d.ufinal)) (by decide +kernel)
  rw [Bool.and_eq_true] at h1
  exact ⟨d, hd, by simpa using h1.1, of_decide_eq_true h1.2⟩

/-! ## C35 deletions during a pending merge -/

/-- C35: whenever the graph is in a state reached by insertions and deletions, the union step at the start of the
next `add_edge` is well defined, and the next `add_edge`, if it returns, loses nothing. -/
def C35_Full : Prop :=
  ∀ (K : K2Impl), K.Lawful → ∀ (n : Nat) (ops : List Op) (d : DKD K), 2 ≤ n → OpsInRange n ops →
    DKD.run false K realSizing n ops = .ok d →
    (∃ d', d.pre = .ok d') ∧
    ∀ e d', InRange n e → d.addEdge false realSizing e = .ok d' →
      ∀ e', InRange n e' → d.contains e' = .ok true → d'.contains e' = .ok true

/-- Deleting every edge of the level being merged during the merge leaves `union_prev` pointing at a null level. -/
def wPend : List Op := [.add (6, 2), .add (5, 4), .add (6, 6), .del (6, 2), .add (1, 5), .del (6, 6), .del (5, 4)]

theorem C35_refuted : ¬ C35_Full := by
  intro h
  obtain ⟨d, hd, h1⟩ := DKD.real_check (nd := false) (n := 7) (ops := wPend)
    (f := fun d => decide (outcome d.pre = .ub)) (by decide +kernel)
  obtain ⟨⟨d', h2⟩, _⟩ := h refK2 refK2_lawful 7 wPend d (by norm_num) (by decide) hd
  rw [outcome_ub.1 (of_decide_eq_true h1)] at h2
  cases h2

/-- The part that holds, for every threshold function: on every history of insertions and deletions that returns,
deletions during merges included, `contains` and the edge count are exact. -/
theorem C35_partial (hK : K.Lawful) (S : Sizing) {n : Nat} {ops : List Op} (ho : OpsInRange n ops) {d : DKD K}
    (hr : DKD.run false K S n ops = .ok d) :
    (∀ e, InRange n e → ∃ b, d.contains e = .ok b ∧ (b = true ↔ specMem ops e)) ∧
    (∃ l : List Edge, l.Nodup ∧ (∀ e, e ∈ l ↔ specMem ops e) ∧ d.numberEdges = l.length) ∧
    (∀ x, x < n → ∃ l, d.listNeighbour x = .ok l ∧ l.Nodup ∧ ∀ y, y ∈ l → specMem ops (x, y)) := by
  obtain ⟨t, hn⟩ := DKD.run_track hK S ho hr
  refine ⟨?_, ⟨d.g.edgesOf, t.inv.inv.nodup, ?_, t.cnt⟩, ?_⟩
  · intro e he
    refine ⟨_, t.inv.inv.contains_eq hK (by rw [hn]; exact he), ?_⟩
    rw [decide_eq_true_eq, t.mem, specMem_iff_specRun]
  · intro e; rw [t.mem, specMem_iff_specRun]
  · intro x hx
    obtain ⟨l, h1, h2, h3⟩ := t.inv.inv.listNeighbour_some hK (x := x) (by rw [hn]; exact hx)
    refine ⟨l, h1, h2, ?_⟩
    intro y hy
    rw [specMem_iff_specRun, ← t.mem]
    unfold edgesOf
    rw [flat_take_drop (d.g.maxR + 1) d.g.ks, ← List.append_assoc]
    exact List.mem_append_left _ ((h3 y).1 hy)

/-- Non-vacuity: a deletion during a pending merge followed by an insertion, on 8 vertices. -/
example : ∃ d, DKD.run false refK2 realSizing 8 (inserts (w25.take 22) ++ [.del (0, 3), .add (5, 5)]) = .ok d ∧
    d.contains (0, 3) = .ok false ∧ d.contains (5, 5) = .ok true := by
  obtain ⟨d, hd, h1⟩ := DKD.real_check (nd := false) (n := 8)
    (ops := inserts (w25.take 22) ++ [.del (0, 3), .add (5, 5)])
    (f := fun d => decide (d.contains (0, 3) = .ok false) && decide (d.contains (5, 5) = .ok true))
    (by decide +kernel)
  rw [Bool.and_eq_true] at h1
  exact ⟨d, hd, of_decide_eq_true h1.1, of_decide_eq_true h1.2⟩

/-! ## C48 neighbours and contains agree -/

/-- C48: in every reachable state `list_neighbour(x)` lists exactly the `y` with `contains(x,y)`. -/
def C48_Full : Prop :=
  ∀ (K : K2Impl), K.Lawful → ∀ (n : Nat) (ops : List Op) (d : DKD K), 2 ≤ n → OpsInRange n ops →
    DKD.run false K realSizing n ops = .ok d →
    ∀ x y l, InRange n (x, y) → d.listNeighbour x = .ok l → (y ∈ l ↔ d.contains (x, y) = .ok true)

/-- Two insertions and one deletion: the rebuild stores the tree above `max_r`. -/
theorem C48_refuted : ¬ C48_Full := by
  intro h
  obtain ⟨d, hd, h1⟩ := DKD.real_check (nd := false) (n := 7) (ops := [.add (4, 0), .add (5, 5), .del (4, 0)])
    (f := fun d => decide (d.contains (5, 5) = .ok true) && decide (d.listNeighbour 5 = .ok []))
    (by decide +kernel)
  rw [Bool.and_eq_true] at h1
  have := (h refK2 refK2_lawful 7 _ d (by norm_num) (by decide) hd 5 5 [] (by decide)
    (of_decide_eq_true h1.2)).2 (of_decide_eq_true h1.1)
  cases this

/-- C48 on insertion histories (both builds). -/
theorem C48_partial (hK : K.Lawful) (nd : Bool) {S : Sizing} (hT : S.Top) {n : Nat} (h2 : 2 ≤ n)
    {es : List Edge} (he : ∀ e ∈ es, InRange n e) {d : DKD K} (hr : DKD.run nd K S n (inserts es) = .ok d)
    {x y : Nat} {l : List Nat} (hxy : InRange n (x, y)) (hl : d.listNeighbour x = .ok l) :
    y ∈ l ↔ d.contains (x, y) = .ok true := by
  cases nd with
  | false =>
    have ha := C32_partial hK hT h2 he hr
    obtain ⟨l', h1, _, h3⟩ := ha.neighbours x hxy.1
    rw [h1] at hl; cases hl
    obtain ⟨b, h4, h5⟩ := ha.contains (x, y) hxy
    rw [h3, h4, ← h5]; simp
  | true =>
    obtain ⟨d', h1, _, h3⟩ := C32_sound_partial hK hT h2 he
    rw [h1] at hr; cases hr
    obtain ⟨l', h4, _, h5⟩ := h3 x hxy.1
    rw [h4] at hl; cases hl
    exact h5 y hxy.2

/-! ## C49 del_edge returns -/

/-- C49: `del_edge` returns in every reachable state. -/
def C49_Full : Prop :=
  ∀ (K : K2Impl), K.Lawful → ∀ (n : Nat) (ops : List Op) (d : DKD K), 2 ≤ n → OpsInRange n ops →
    DKD.run false K realSizing n ops = .ok d → ∀ e, InRange n e → ∃ d', d.delEdge realSizing e = .ok d'

/-- Three edges in one level, two deleted: the level search of the rebuild runs off the array. -/
theorem C49_refuted : ¬ C49_Full := by
  intro h
  obtain ⟨d, hd, h1⟩ := DKD.real_check (nd := false) (n := 3)
    (ops := [.add (0, 2), .add (1, 0), .add (2, 2), .del (1, 0)])
    (f := fun d => decide (outcome (d.delEdge hybSizing (0, 2)) = .ub)) (by decide +kernel)
  obtain ⟨d', h2⟩ := h refK2 refK2_lawful 3 _ d (by norm_num) (by decide) hd (0, 2) (by decide)
  rw [realSizing_eq_hyb, outcome_ub.1 (of_decide_eq_true h1)] at h2
  cases h2

/-- `del_edge` of a buffered edge always returns, and so does one that does not trigger the rebuild; a rebuild
returns iff the level search finds a level. -/
theorem C49_partial (hK : K.Lawful) (S : Sizing) {n : Nat} {ops : List Op} (ho : OpsInRange n ops) {d : DKD K}
    (hr : DKD.run false K S n ops = .ok d) {e : Edge} (he : InRange n e) :
    (∃ d', d.delEdge S e = .ok d') ∨
    (d.delEdge S e = .ub ∧ ∃ g : DK K, g.nTotal ≤ d.g.nTotal ∧ g.nv = n ∧
      selectLevel K S (max n g.nTotal) g.ks 0 (S.maxsz (max n g.nTotal) 0) = none) := by
  obtain ⟨t, hn⟩ := DKD.run_track hK S ho hr
  obtain ⟨c', a1, a2, a3, a4, a5, a6⟩ := t.inv.inv.c0wf.erase_ok e
  unfold DKD.delEdge
  rw [a1]
  simp only [Res.ok_bind]
  by_cases hl : e ∈ d.g.c0.live
  · simp only [hl, decide_true, if_true]
    exact Or.inl ⟨_, rfl⟩
  · simp only [hl, decide_false, Bool.false_eq_true, if_false]
    have hfil : d.g.c0.live.filter (fun e' => decide (e' ≠ e)) = d.g.c0.live := by
      rw [List.filter_eq_self]
      intro a ha
      have : a ≠ e := fun hh => hl (hh ▸ ha)
      simpa using this
    rw [hfil] at a3
    have hnd := t.inv.inv.nodup
    unfold edgesOf at hnd
    rw [List.nodup_append] at hnd
    have he' : InRange d.g.nv e := by rw [hn]; exact he
    obtain ⟨s1, s2, s3, s4, s5⟩ := DKD.eraseFirst_spec hK he' t.inv.inv.val hnd.2.1
    generalize hg : DKD.afterErase { d.g with c0 := c' } e = a
    have g1c : a.2.c0 = c' := by rw [← hg]; rfl
    have g1k : a.2.ks = (DKD.eraseFirst K e d.g.ks).2.2 := by rw [← hg]; rfl
    have g1t : a.2.nTotal = if (DKD.eraseFirst K e d.g.ks).1 then decr d.g.nTotal else d.g.nTotal := by
      rw [← hg]; rfl
    have hnv1 : a.2.nv = d.g.nv := by rw [← hg]; rfl
    have g1m : a.2.maxR = d.g.maxR := by rw [← hg]; rfl
    by_cases hb : S.rebuild a.1 a.2.nTotal = true
    · rw [if_pos hb]
      unfold DKD.rebuild
      cases hsel : selectLevel K S (max a.2.nv a.2.nTotal) a.2.ks 0 (S.maxsz (max a.2.nv a.2.nTotal) 0) with
      | none =>
        right
        refine ⟨rfl, a.2, ?_, by rw [hnv1, hn], ?_⟩
        · rw [g1t]
          split
          · rename_i hf
            have hm := s3.1 hf
            have : 0 < d.g.edgesOf.length := List.length_pos_of_mem (List.mem_append_right _ hm)
            have := t.cnt
            unfold decr; rw [if_neg (by omega)]; omega
          · omega
        · rw [hnv1, hn] at hsel; exact hsel
      | some i =>
        left
        have hi1 : a.2.Inv := by
          refine ⟨⟨by rw [g1c]; exact a2, by rw [g1c, hnv1, a6, t.inv.inv.c0nv],
            by rw [g1k, s2, t.inv.inv.len], by rw [g1k, hnv1]; exact s1,
            by rw [g1m]; exact t.inv.inv.maxR_lt, ?_⟩, ?_⟩
          · intro e' he''
            rw [hnv1]
            apply t.inv.inv.range
            unfold edgesOf at he'' ⊢
            rw [g1c, g1k, a3] at he''
            rcases List.mem_append.1 he'' with h1 | h1
            · exact List.mem_append_left _ h1
            · exact List.mem_append_right _ ((s4 e').1 h1).1
          · simp only [edgesOf, g1c, g1k, a3]
            rw [List.nodup_append]
            exact ⟨hnd.1, s5, fun x hx y hy => hnd.2.2 x hx y ((s4 y).1 hy).1⟩
        obtain ⟨t', c, t1, _⟩ := DKD.rebuildTmp_spec hK hi1
        simp only [t1, Res.ok_bind]
        exact ⟨_, rfl⟩
    · rw [if_neg hb]
      exact Or.inl ⟨_, rfl⟩

/-! ## C50 inserting into a loaded graph -/

/-- `load(in, dir)` of `DKtree_delay` (DKtree_delay.hpp:365-390): the code of `DKtree::load`; the state of the
merge (`union_i`, `union_prev`, `union_final`, `tmp`) is neither archived nor reset. -/
def DKD.load (S : Sizing) (d : DKD K) (dir : Dir K) : Res (DKD K) := do
  let g ← d.g.load S dir
  .ok { d with g := g }

/-- `DKtree_delay()` (DKtree_delay.hpp:65, 90-93). -/
def DKD.blank (K : K2Impl) : DKD K := ⟨DK.blank K, 0, RS, 1, none⟩

/-- C50: a graph that was saved with no merge pending and loaded into a new object accepts any insertion. -/
def C50_Full : Prop :=
  ∀ (K : K2Impl), K.Lawful → ∀ (n : Nat) (es : List Edge) (d d' : DKD K) (dir : Dir K), 2 ≤ n →
    (∀ e ∈ es, InRange n e) → DKD.run false K realSizing n (inserts es) = .ok d → d.workDone = true →
    d.g.serialize (Dir.empty K) = .ok dir → (DKD.blank K).load realSizing dir = .ok d' →
    ∀ e, InRange n e → d'.addEdge false realSizing e ≠ .ub

/-- Two insertions on 8 vertices, save, load: the first insertion afterwards merges level 1 with the null `tmp`. -/
theorem C50_refuted : ¬ C50_Full := by
  intro h
  obtain ⟨d, hd, h1⟩ := DKD.real_check (nd := false) (n := 8) (ops := inserts [(0, 0), (0, 1)])
    (f := fun d => d.workDone && check (d.g.serialize (Dir.empty refK2)) (fun dir =>
      check ((DKD.blank refK2).load hybSizing dir) (fun d' =>
        decide (outcome (d'.addEdge false hybSizing (7, 7)) = .ub)))) (by decide +kernel)
  rw [Bool.and_eq_true] at h1
  obtain ⟨dir, h2, h3⟩ := check_iff.1 h1.2
  obtain ⟨d', h4, h5⟩ := check_iff.1 h3
  rw [← realSizing_eq_hyb] at h4 h5
  exact h refK2 refK2_lawful 8 _ d d' dir (by norm_num) (by decide) hd h1.1 h2 h4 (7, 7) (by decide)
    (outcome_ub.1 (of_decide_eq_true h5))

/-- The exact condition: the first insertion after loading any archive into a new object is undefined if and only
if level 0 or 1 of the loaded graph holds a tree; otherwise its union step leaves the graph as it was. -/
theorem C50_partial (S : Sizing) {dir : Dir K} {d : DKD K} (hl : (DKD.blank K).load S dir = .ok d) :
    (d.g.ks[0]? = some none ∧ d.g.ks[1]? = some none ∧ ∃ d', d.pre = .ok d' ∧ d'.g = d.g ∧ d'.workDone = true) ∨
    ((∃ t, d.g.ks[0]? = some (some t) ∨ d.g.ks[1]? = some (some t)) ∧
      ∀ nd e, d.addEdge nd S e = .ub) := by
  unfold DKD.load at hl
  rw [Res.bind_eq_ok] at hl
  obtain ⟨g, h1, h2⟩ := hl
  cases h2
  have hlen : g.ks.length = RS := by
    unfold DK.load at h1
    split at h1
    · cases h1
    · rw [Res.bind_eq_ok] at h1
      obtain ⟨c, _, h4⟩ := h1
      split at h4
      · cases h4
        simp [DK.readLevels, DKD.blank, DK.blank]
      · cases h4
  clear h1
  obtain ⟨mr, nv, nt, c0, ks⟩ := g
  simp only at hlen
  match ks, hlen with
  | a :: b :: rest, hlen =>
    cases a with
    | some t =>
      right
      refine ⟨⟨t, Or.inl rfl⟩, ?_⟩
      intro nd e
      rfl
    | none =>
      cases b with
      | some t =>
        right
        refine ⟨⟨t, Or.inr rfl⟩, ?_⟩
        intro nd e
        rfl
      | none =>
        left
        exact ⟨rfl, rfl, _, rfl, rfl, rfl⟩

/-- Non-vacuity of the first case: 5 insertions, saved and loaded, leave levels 0 and 1 empty, and the loaded graph
accepts an insertion. -/
example : ∃ (dir : Dir refK2) (d d' : DKD refK2), (DKD.blank refK2).load realSizing dir = .ok d ∧
    d.addEdge false realSizing (7, 7) = .ok d' ∧ d'.contains (0, 0) = .ok true ∧ d'.numberEdges = 6 := by
  obtain ⟨d, hd, h1⟩ := DKD.real_check (nd := false) (n := 8) (ops := inserts (w25.take 5))
    (f := fun d => check (d.g.serialize (Dir.empty refK2)) (fun dir =>
      check ((DKD.blank refK2).load hybSizing dir) (fun d' =>
        check (d'.addEdge false hybSizing (7, 7)) (fun d'' =>
          decide (d''.contains (0, 0) = .ok true) && decide (d''.numberEdges = 6))))) (by decide +kernel)
  obtain ⟨dir, h2, h3⟩ := check_iff.1 h1
  obtain ⟨d', h4, h5⟩ := check_iff.1 h3
  obtain ⟨d'', h6, h7⟩ := check_iff.1 h5
  rw [← realSizing_eq_hyb] at h4 h6
  rw [Bool.and_eq_true] at h7
  exact ⟨dir, d', d'', h4, h6, of_decide_eq_true h7.1, of_decide_eq_true h7.2⟩

end DK2
