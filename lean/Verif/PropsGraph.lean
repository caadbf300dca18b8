import Verif.DKMore
import Verif.Weak
import Verif.Witness
/-!
# Properties of `DKtree` (C01–C08, C12–C17, C42–C47)

In every theorem `run K S n ops = .ok g` says: the constructor `DKtree(n)` followed by the calls
`ops` returned normally and left the object `g`.  `K` is any tree meeting the contract `K.Lawful`
(and, where stated, `K.ForcedPure`, assumption A1); `S` is any pair of threshold functions, unless
the theorem says `realSizing` (the formulas of `utils.hpp`).

`Cnn_Full` is the full English property; when the code does not have it, `Cnn_refuted` proves its
negation with a concrete history (real thresholds, lawful tree), and the theorems `Cnn_..._partial`
say exactly what does hold.
-/

namespace DK2
open DK

variable {K : K2Impl}

/-- A concrete history returns and its final graph passes a test (real thresholds). -/
theorem real_check {n : Nat} {ops : List Op} {f : DK refK2 → Bool}
    (h : 2 ≤ n ∧ n ≤ 17 ∧ ops.length ≤ 18 ∧ OpsInRange n ops)
    (hc : check (run refK2 tabSizing n ops) f = true) :
    ∃ g, run refK2 realSizing n ops = .ok g ∧ f g = true := by
  rw [real_run h]; exact check_iff.1 hc

/-- The same under any thresholds that agree with the table. -/
theorem tab_check {S : Sizing} (hS : Agree tabSizing S 2 17) {n : Nat} {ops : List Op} {f : DK refK2 → Bool}
    (h : 2 ≤ n ∧ n ≤ 17 ∧ ops.length ≤ 18 ∧ OpsInRange n ops)
    (hc : check (run refK2 tabSizing n ops) f = true) :
    ∃ g, run refK2 S n ops = .ok g ∧ f g = true := by
  rw [tab_run hS h]; exact check_iff.1 hc

/-! ## C01 contains tracks the history -/

/-- C01: after any history that returns, `contains` is true exactly on the edges whose last call was
an add. -/
def C01_Full (S : Sizing) : Prop :=
  ∀ K : K2Impl, K.Lawful → K.ForcedPure → ∀ n ops (g : DK K), OpsInRange n ops →
    run K S n ops = .ok g → ∀ e, InRange n e →
      (∃ b, g.contains e = .ok b) ∧ (g.contains e = .ok true ↔ specMem ops e)

/-- The code loses the user's edge `(1,1)` in a reorganisation. -/
theorem C01_refuted_of {S : Sizing} (hS : Agree tabSizing S 2 17) : ¬ C01_Full S := by
  intro h
  obtain ⟨g, hg, h1⟩ := tab_check hS (n := 4) (ops := wLost)
    (f := fun g => g.contains (1, 1) = .ok false) (by decide) (by decide)
  have h2 := ((h refK2 refK2_lawful refK2_forcedPure 4 wLost g (by decide) hg (1, 1) (by decide)).2).2
    (by decide)
  simp only [decide_eq_true_eq] at h1
  rw [h2] at h1; cases h1

theorem C01_refuted : ¬ C01_Full realSizing := C01_refuted_of agree_tab_real

/-- C01 for every pair other than `(1,1)`, rebuilds included.  Missing: the pair `(1,1)`, for which
`C01_11_partial` gives the exact condition. -/
theorem C01_contains_partial (hK : K.Lawful) (hF : K.ForcedPure) (S : Sizing) {n : Nat} {ops : List Op}
    {g : DK K} (ho : OpsInRange n ops) (hr : run K S n ops = .ok g) {e : Edge} (he : InRange n e)
    (hne : e ≠ (1, 1)) :
    (∃ b, g.contains e = .ok b) ∧ (g.contains e = .ok true ↔ specMem ops e) := by
  obtain ⟨t, hnv, _⟩ := run_track hK hF S ho hr
  rw [t.inv.contains_eq hK (by rw [hnv]; exact he), specMem_iff_specRun, ← t.mem e hne]
  simp

/-- The exact answer for `(1,1)`: its last add is followed by no call naming it *and by no deletion
that triggers a reorganisation*. -/
theorem C01_11_partial (hK : K.Lawful) (hF : K.ForcedPure) (S : Sizing) {n : Nat} {ops : List Op}
    {g : DK K} (ho : OpsInRange n ops) (hr : run K S n ops = .ok g) (he : InRange n (1, 1)) :
    (∃ b, g.contains (1, 1) = .ok b) ∧ (g.contains (1, 1) = .ok true ↔ Kept11 K S n ops) := by
  obtain ⟨t, hnv, _⟩ := run_track hK hF S ho hr
  rw [t.inv.contains_eq hK (by rw [hnv]; exact he), ← run_mem11 hK hF S ho hr]
  simp

/-- C01 in full on every history none of whose deletions triggers a reorganisation. -/
theorem C01_quiet_partial (hK : K.Lawful) (hF : K.ForcedPure) (S : Sizing) {n : Nat} {ops : List Op}
    {g : DK K} (ho : OpsInRange n ops) (hq : Quiet K S n ops) (hr : run K S n ops = .ok g) {e : Edge}
    (he : InRange n e) :
    (∃ b, g.contains e = .ok b) ∧ (g.contains e = .ok true ↔ specMem ops e) := by
  obtain ⟨t, hnv⟩ := run_exact hK hF S ho hq hr
  rw [t.inv.contains_eq hK (by rw [hnv]; exact he), specMem_iff_specRun, ← t.mem e]
  simp

/-- Instance: 14 calls with flushes and a reorganisation; `(3,0)` present, `(0,2)` deleted. -/
example : ∃ g : DK refK2, run refK2 realSizing 4 wLost = .ok g ∧
    decide (g.contains (3, 0) = .ok true ∧ g.contains (0, 2) = .ok false) = true :=
  real_check (by decide) (by decide)

/-! ## C02 insert-only graphs -/

/-- C02: with the thresholds of the code, any sequence of in-range insertions returns; `contains` is
then membership in the sequence and `get_number_edges` counts the distinct edges. -/
theorem C02_insert_only (hK : K.Lawful) (hF : K.ForcedPure) {n : Nat} (hn : 2 ≤ n) {es : List Edge}
    (hes : ∀ e ∈ es, InRange n e) :
    ∃ g : DK K, run K realSizing n (es.map Op.add) = .ok g ∧
      (∀ e, InRange n e → g.contains e = .ok (decide (e ∈ es))) ∧
      g.numberEdges = es.dedup.length := by
  obtain ⟨g, h1, _, h3, h4⟩ := run_inserts hK hF realSizing_top hn hes
  refine ⟨g, h1, ?_, ?_⟩
  · intro e he
    rw [h4.inv.contains_eq hK (by rw [h3]; exact he)]
    have := h4.mem e
    by_cases hm : e ∈ es
    · simp [hm, this.2 hm]
    · simp [hm, mt this.1 hm]
  · show g.nTotal = _
    rw [h4.cnt]
    exact length_eq_of_mem_iff h4.inv.nodup es.nodup_dedup (fun e => by rw [h4.mem, List.mem_dedup])

/-- Every prefix also returns: no insertion of the sequence fails (same theorem, prefix by prefix). -/
example (hK : K.Lawful) (hF : K.ForcedPure) {n : Nat} (hn : 2 ≤ n) {a b : List Edge}
    (hes : ∀ e ∈ a ++ b, InRange n e) : ∃ g : DK K, run K realSizing n (a.map Op.add) = .ok g :=
  let ⟨g, h, _⟩ := C02_insert_only hK hF hn (es := a) (fun e he => hes e (by simp [he])); ⟨g, h⟩

example : ∃ g : DK refK2, run refK2 realSizing 3 (([(0,1),(1,2),(0,1),(2,2)] : List Edge).map Op.add) = .ok g ∧
    g.numberEdges = 3 := by
  obtain ⟨g, h1, _, h3⟩ := C02_insert_only refK2_lawful refK2_forcedPure (n := 3) (by decide)
    (es := [(0,1),(1,2),(0,1),(2,2)]) (by decide)
  exact ⟨g, h1, by rw [h3]; decide⟩

/-! ## C03 get_number_edges -/

/-- C03: `get_number_edges` is the number of edges in the graph. -/
def C03_Full (S : Sizing) : Prop :=
  ∀ K : K2Impl, K.Lawful → K.ForcedPure → ∀ n ops (g : DK K), OpsInRange n ops →
    run K S n ops = .ok g →
      ∀ L : List Edge, L.Nodup → (∀ e, e ∈ L ↔ specMem ops e) → g.numberEdges = L.length

/-- A reorganisation with an empty buffer counts the helper edge `(1,1)` for ever. -/
theorem C03_refuted_of {S : Sizing} (hS : Agree tabSizing S 2 17) : ¬ C03_Full S := by
  intro h
  obtain ⟨g, hg, h1⟩ := tab_check hS (n := 3) (ops := wDrift)
    (f := fun g => g.numberEdges = 2) (by decide) (by decide)
  have h2 := h refK2 refK2_lawful refK2_forcedPure 3 wDrift g (by decide) hg [(2, 0)] (by decide) (by
    intro e
    constructor
    · intro he; simp at he; subst he; decide
    · intro he
      rw [specMem_iff_specRun] at he
      simp only [specRun, wDrift, List.foldl, specStep] at he
      obtain ⟨h1, h2, h3⟩ := he
      rcases h3 with h3 | h3 | h3 | h3
      · exact absurd h3 h1
      · simp [h3]
      · exact absurd h3 h2
      · exact h3.elim)
  simp only [decide_eq_true_eq] at h1
  rw [h1] at h2; simp at h2

theorem C03_refuted : ¬ C03_Full realSizing := C03_refuted_of agree_tab_real

/-- C03 on histories without reorganisation. -/
theorem C03_quiet_partial (hK : K.Lawful) (hF : K.ForcedPure) (S : Sizing) {n : Nat} {ops : List Op}
    {g : DK K} (ho : OpsInRange n ops) (hq : Quiet K S n ops) (hr : run K S n ops = .ok g)
    {L : List Edge} (hL : L.Nodup) (hm : ∀ e, e ∈ L ↔ specMem ops e) : g.numberEdges = L.length := by
  obtain ⟨t, _⟩ := run_exact hK hF S ho hq hr
  show g.nTotal = _
  rw [t.cnt]
  exact length_eq_of_mem_iff t.inv.nodup hL (fun e => by rw [t.mem, hm, specMem_iff_specRun])

/-- On any history the counter never under-reports what the graph contains. -/
theorem C03_lower_partial (hK : K.Lawful) (hF : K.ForcedPure) (S : Sizing) {n : Nat} {ops : List Op}
    {g : DK K} (ho : OpsInRange n ops) (hr : run K S n ops = .ok g) {L : List Edge} (hL : L.Nodup)
    (hm : ∀ e ∈ L, InRange n e ∧ g.contains e = .ok true) : L.length ≤ g.numberEdges := by
  obtain ⟨t, hnv, _⟩ := run_track hK hF S ho hr
  refine le_trans (List.subperm_of_subset hL (l₂ := g.edgesOf) ?_).length_le t.cnt
  intro e he
  obtain ⟨h1, h2⟩ := hm e he
  rw [t.inv.contains_eq hK (by rw [hnv]; exact h1)] at h2
  simpa using h2

/-- Boolean form of `Quiet` on concrete histories. -/
def quietB (S : Sizing) (n : Nat) (ops : List Op) : Bool :=
  (List.range ops.length).all fun i =>
    match ops[i]? with
    | some (.del e) => (match run refK2 S n (ops.take i) with
      | .ok g => !(g.rebuilds S e)
      | _ => true)
    | _ => true

theorem quiet_of_quietB {S : Sizing} {n : Nat} {ops : List Op} (h : quietB S n ops = true) :
    Quiet refK2 S n ops := by
  intro pre e post hops g hg
  unfold quietB at h
  rw [List.all_eq_true] at h
  have := h pre.length (by rw [hops]; simp)
  have h1 : ops[pre.length]? = some (.del e) := by rw [hops]; simp
  have h2 : ops.take pre.length = pre := by rw [hops]; simp
  rw [h1] at this
  simp only [h2, hg] at this
  simpa using this

/-- Instance of the hypotheses: a quiet history with a flush, deletions in a level and in the buffer
(threshold tables of `realSizing`). -/
example : ∃ g : DK refK2, OpsInRange 4 [.add (0,1), .add (2,3), .add (3,3), .del (0,1), .add (1,1), .del (1,1)] ∧
    Quiet refK2 tabSizing 4 [.add (0,1), .add (2,3), .add (3,3), .del (0,1), .add (1,1), .del (1,1)] ∧
    run refK2 tabSizing 4 [.add (0,1), .add (2,3), .add (3,3), .del (0,1), .add (1,1), .del (1,1)] = .ok g ∧
    g.numberEdges = 2 := by
  have hc : check (run refK2 tabSizing 4 [.add (0,1), .add (2,3), .add (3,3), .del (0,1), .add (1,1), .del (1,1)])
    (fun g => g.numberEdges = 2) = true := by decide
  obtain ⟨g, h1, h2⟩ := check_iff.1 hc
  exact ⟨g, by decide, quiet_of_quietB (by decide), h1, by simpa using h2⟩

/-! ## C04 adding a present edge -/

/-- C04: adding an edge that is present returns the very same object. -/
theorem C04_add_present (hF : K.ForcedPure) (S : Sizing) {g : DK K} {e : Edge}
    (hc : g.contains e = .ok true) : g.addEdge S e = .ok g := by
  unfold DK.addEdge
  rw [containsForced_pure hF, hc]; rfl

/-- C04 without assumption A1 (any lawful `adj_forced`): adding a present edge returns, and changes
neither `contains` nor the edge count. -/
theorem C04_add_present_forced (hK : K.Lawful) (S : Sizing) {n : Nat} {ops : List Op}
    {g : DK K} (ho : OpsInRange n ops) (hr : run K S n ops = .ok g) {e : Edge} (he : InRange n e)
    (hc : g.contains e = .ok true) :
    ∃ g', g.addEdge S e = .ok g' ∧ g'.numberEdges = g.numberEdges ∧
      ∀ e', InRange n e' → g'.contains e' = g.contains e' := by
  obtain ⟨w, hnv, _⟩ := run_weak hK S ho hr
  rw [← hnv] at he
  have hm : e ∈ g.edgesOf := by rw [w.contains_eq hK he] at hc; simpa using hc
  have h1 : ∃ g', g.addEdge S e = .ok g' ∧ g'.nTotal = g.nTotal := by
    unfold DK.addEdge containsForced
    rw [w.c0wf.contains_eq]
    simp only [Res.ok_bind]
    by_cases hl : e ∈ g.c0.live
    · simp only [hl, decide_true, if_true, Res.ok_bind]; exact ⟨g, rfl, rfl⟩
    · simp only [hl, decide_false, Bool.false_eq_true, if_false, Res.ok_bind]
      have hfl : e ∈ flat K g.ks := (List.mem_append.1 hm).resolve_left hl
      have hsc : (forcedScan K e g.ks).1 = true := by
        by_contra hne
        exact ((forcedScan_spec hK he w.val).2.2.2 (by simpa using hne)).1 hfl
      simp only [hsc, if_true]
      exact ⟨_, rfl, rfl⟩
  obtain ⟨g', h1, h2⟩ := h1
  refine ⟨g', h1, h2, ?_⟩
  obtain ⟨w', hnv', hm'⟩ := w.addEdge hK S he h1
  intro e' he'
  rw [← hnv] at he'
  rw [w'.contains_eq hK (by rw [hnv']; exact he'), w.contains_eq hK he']
  have : e' ∈ g'.edgesOf ↔ e' ∈ g.edgesOf := by
    rw [hm']; exact ⟨fun h => h.elim (fun h => h ▸ hm) id, Or.inr⟩
  by_cases h : e' ∈ g.edgesOf
  · simp [h, this.2 h]
  · simp [h, mt this.1 h]

/-- Instance: the edge sits in a level after a flush. -/
example : ∃ g : DK refK2, run refK2 realSizing 3 [.add (0, 0), .add (2, 0), .add (2, 1)] = .ok g ∧
    decide (g.contains (2, 0) = .ok true ∧ g.c0.contains (2, 0) = .ok false) = true :=
  real_check (by decide) (by decide)

/-! ## C05 deleting an absent edge -/

/-- C05: deleting an absent edge changes neither `contains` nor the edge count. -/
def C05_Full (S : Sizing) : Prop :=
  ∀ K : K2Impl, K.Lawful → K.ForcedPure → ∀ n ops (g g' : DK K) e, OpsInRange n ops → InRange n e →
    run K S n ops = .ok g → g.contains e = .ok false → g.delEdge S e = .ok g' →
      (∀ e', InRange n e' → g'.contains e' = g.contains e') ∧ g'.numberEdges = g.numberEdges

/-- Deleting an absent edge can trigger the reorganisation, which increments the counter. -/
theorem C05_refuted_of {S : Sizing} (hS : Agree tabSizing S 2 17) : ¬ C05_Full S := by
  intro h
  obtain ⟨g1, hg1, h1⟩ := tab_check hS (n := 3) (ops := wAbsent ++ [.del (2, 1)])
    (f := fun g => g.numberEdges = 2) (by decide) (by decide)
  obtain ⟨g, hg, hd⟩ := run_snoc_ok S hg1
  obtain ⟨g', hg', h2⟩ := tab_check hS (n := 3) (ops := wAbsent)
    (f := fun g => decide (g.numberEdges = 1 ∧ g.contains (2, 1) = .ok false)) (by decide) (by decide)
  rw [hg] at hg'; cases hg'
  simp only [decide_eq_true_eq] at h1 h2
  have := (h refK2 refK2_lawful refK2_forcedPure 3 wAbsent g g1 (2, 1) (by decide) (by decide) hg
    h2.2 hd).2
  rw [h1, h2.1] at this; cases this

theorem C05_refuted : ¬ C05_Full realSizing := C05_refuted_of agree_tab_real

/-- C05 when the call does not trigger a reorganisation (then it always returns). -/
theorem C05_quiet_partial (hK : K.Lawful) (hF : K.ForcedPure) (S : Sizing) {n : Nat} {ops : List Op}
    {g : DK K} {e : Edge} (ho : OpsInRange n ops) (he : InRange n e) (hr : run K S n ops = .ok g)
    (hc : g.contains e = .ok false) (hq : g.rebuilds S e = false) :
    ∃ g', g.delEdge S e = .ok g' ∧ (∀ e', InRange n e' → g'.contains e' = g.contains e') ∧
      g'.numberEdges = g.numberEdges := by
  obtain ⟨t, hnv, _⟩ := run_track hK hF S ho hr
  rw [← hnv] at he
  have hne : e ∉ g.edgesOf := by
    rw [t.inv.contains_eq hK he] at hc; simpa using hc
  obtain ⟨g', a1, a2, a3, a4, a5, _⟩ := t.inv.delEdge_quiet hK S he hq
  refine ⟨g', a1, ?_, ?_⟩
  · intro e' he'
    rw [← hnv] at he'
    rw [a2.contains_eq hK (by rw [a3]; exact he'), t.inv.contains_eq hK he']
    have : e' ∈ g'.edgesOf ↔ e' ∈ g.edgesOf := by
      rw [a4]; exact ⟨fun h => h.1, fun h => ⟨h, fun hh => hne (hh ▸ h)⟩⟩
    by_cases h : e' ∈ g.edgesOf
    · simp [h, this.2 h]
    · simp [h, mt this.1 h]
  · show g'.nTotal = g.nTotal
    rw [a5, if_neg hne]

/-- In general, deleting an absent edge changes no answer but possibly that of `(1,1)`, and moves the
counter by at most one. -/
theorem C05_general_partial (hK : K.Lawful) (hF : K.ForcedPure) (S : Sizing) {n : Nat} {ops : List Op}
    {g g' : DK K} {e : Edge} (ho : OpsInRange n ops) (he : InRange n e) (hr : run K S n ops = .ok g)
    (hc : g.contains e = .ok false) (hd : g.delEdge S e = .ok g') :
    (∀ e', InRange n e' → e' ≠ (1, 1) → g'.contains e' = g.contains e') ∧
      g.numberEdges ≤ g'.numberEdges ∧ g'.numberEdges ≤ g.numberEdges + 1 := by
  by_cases hq : g.rebuilds S e = true
  · obtain ⟨t, hnv, hn1⟩ := run_track hK hF S ho hr
    have h2 : 2 ≤ g.nv := by rw [hnv]; exact inRange_two he hn1
    rw [← hnv] at he
    have hne : e ∉ g.edgesOf := by
      rw [t.inv.contains_eq hK he] at hc; simpa using hc
    obtain ⟨a2, a3, a4, a5, _⟩ := t.inv.delEdge_rebuild hK hF S he h2 hq hd
    refine ⟨?_, ?_⟩
    · intro e' he' h11
      rw [← hnv] at he'
      rw [a2.contains_eq hK (by rw [a3]; exact he'), t.inv.contains_eq hK he']
      have : e' ∈ g'.edgesOf ↔ e' ∈ g.edgesOf := by
        rw [a4]; exact ⟨fun h => h.1, fun h => ⟨h, fun hh => hne (hh ▸ h), h11⟩⟩
      by_cases h : e' ∈ g.edgesOf
      · simp [h, this.2 h]
      · simp [h, mt this.1 h]
    · show g.nTotal ≤ g'.nTotal ∧ g'.nTotal ≤ g.nTotal + 1
      rw [a5, if_neg hne]
      split <;> omega
  · obtain ⟨g1, a1, a2, a3⟩ := C05_quiet_partial hK hF S ho he hr hc (by simpa using hq)
    rw [hd] at a1; cases a1
    exact ⟨fun e' he' _ => a2 e' he', by omega, by omega⟩

example : ∃ g : DK refK2, run refK2 realSizing 3 wAbsent = .ok g ∧
    decide (g.contains (2, 1) = .ok false ∧ g.contains (1, 2) = .ok true) = true :=
  real_check (by decide) (by decide)

/-! ## C06 calls act on the named edge only -/

/-- C06 for `add_edge`, in full: the named edge becomes present, every other answer is unchanged. -/
theorem C06_add (hK : K.Lawful) (hF : K.ForcedPure) (S : Sizing) {n : Nat} {ops : List Op}
    {g g' : DK K} {e : Edge} (ho : OpsInRange n ops) (he : InRange n e) (hr : run K S n ops = .ok g)
    (ha : g.addEdge S e = .ok g') :
    g'.contains e = .ok true ∧ ∀ e', InRange n e' → e' ≠ e → g'.contains e' = g.contains e' := by
  obtain ⟨t, hnv, _⟩ := run_track hK hF S ho hr
  rw [← hnv] at he
  obtain ⟨a1, a2, a3, _, _⟩ := t.inv.addEdge hK hF S he ha
  refine ⟨?_, ?_⟩
  · rw [a1.contains_eq hK (by rw [a2]; exact he)]
    simp [(a3 e).2 (Or.inl rfl)]
  · intro e' he' hne
    rw [← hnv] at he'
    rw [a1.contains_eq hK (by rw [a2]; exact he'), t.inv.contains_eq hK he']
    have : e' ∈ g'.edgesOf ↔ e' ∈ g.edgesOf := by rw [a3]; simp [hne]
    by_cases h : e' ∈ g.edgesOf
    · simp [h, this.2 h]
    · simp [h, mt this.1 h]

/-- C06 for `del_edge`. -/
def C06_del_Full (S : Sizing) : Prop :=
  ∀ K : K2Impl, K.Lawful → K.ForcedPure → ∀ n ops (g g' : DK K) e, OpsInRange n ops → InRange n e →
    run K S n ops = .ok g → g.delEdge S e = .ok g' →
      g'.contains e = .ok false ∧ ∀ e', InRange n e' → e' ≠ e → g'.contains e' = g.contains e'

theorem C06_del_refuted_of {S : Sizing} (hS : Agree tabSizing S 2 17) : ¬ C06_del_Full S := by
  intro h
  obtain ⟨g1, hg1, h1⟩ := tab_check hS (n := 4) (ops := wLost)
    (f := fun g => g.contains (1, 1) = .ok false) (by decide) (by decide)
  have hsplit : wLost = wLost.dropLast ++ [.del (0, 2)] := by decide
  rw [hsplit] at hg1
  obtain ⟨g, hg, hd⟩ := run_snoc_ok S hg1
  obtain ⟨g', hg', h2⟩ := tab_check hS (n := 4) (ops := wLost.dropLast)
    (f := fun g => g.contains (1, 1) = .ok true) (by decide) (by decide)
  rw [hg] at hg'; cases hg'
  simp only [decide_eq_true_eq] at h1 h2
  have := (h refK2 refK2_lawful refK2_forcedPure 4 wLost.dropLast g g1 (0, 2) (by decide) (by decide) hg
    hd).2 (1, 1) (by decide) (by decide)
  rw [h1, h2] at this; cases this

theorem C06_del_refuted : ¬ C06_del_Full realSizing := C06_del_refuted_of agree_tab_real

/-- C06 for `del_edge`: the named edge becomes absent; every other answer but that of `(1,1)` is
unchanged; `(1,1)` may only disappear, and only if a reorganisation happens.
Missing: `(1,1)` survives every deletion (false, `C06_del_refuted`). -/
theorem C06_del_partial (hK : K.Lawful) (hF : K.ForcedPure) (S : Sizing) {n : Nat} {ops : List Op}
    {g g' : DK K} {e : Edge} (ho : OpsInRange n ops) (he : InRange n e) (hr : run K S n ops = .ok g)
    (hd : g.delEdge S e = .ok g') :
    g'.contains e = .ok false ∧
    (∀ e', InRange n e' → e' ≠ e → (e' ≠ (1, 1) ∨ g.rebuilds S e = false) →
      g'.contains e' = g.contains e') ∧
    (g'.contains (1, 1) = .ok true → InRange n (1, 1) → g.contains (1, 1) = .ok true) := by
  obtain ⟨t, hnv, hn1⟩ := run_track hK hF S ho hr
  have h2 : 2 ≤ g.nv := by rw [hnv]; exact inRange_two he hn1
  rw [← hnv] at he
  have key : g'.Inv ∧ g'.nv = g.nv ∧ (∀ e', e' ≠ (1, 1) ∨ g.rebuilds S e = false →
      (e' ∈ g'.edgesOf ↔ e' ∈ g.edgesOf ∧ e' ≠ e)) ∧
      (∀ e', e' ∈ g'.edgesOf → e' ∈ g.edgesOf ∧ e' ≠ e) := by
    by_cases hq : g.rebuilds S e = true
    · obtain ⟨a2, a3, a4, _, _⟩ := t.inv.delEdge_rebuild hK hF S he h2 hq hd
      refine ⟨a2, a3, ?_, ?_⟩
      · intro e' h
        rcases h with h | h
        · rw [a4]; tauto
        · rw [h] at hq; cases hq
      · intro e' h; rw [a4] at h; exact ⟨h.1, h.2.1⟩
    · obtain ⟨g1, a1, a2, a3, a4, _⟩ := t.inv.delEdge_quiet hK S he (by simpa using hq)
      rw [hd] at a1; cases a1
      exact ⟨a2, a3, fun e' _ => a4 e', fun e' h => (a4 e').1 h⟩
  obtain ⟨k1, k2, k3, k4⟩ := key
  refine ⟨?_, ?_, ?_⟩
  · rw [k1.contains_eq hK (by rw [k2]; exact he)]
    have : e ∉ g'.edgesOf := fun h => (k4 e h).2 rfl
    simp [this]
  · intro e' he' hne hor
    rw [← hnv] at he'
    rw [k1.contains_eq hK (by rw [k2]; exact he'), t.inv.contains_eq hK he']
    have := k3 e' hor
    by_cases h : e' ∈ g.edgesOf
    · simp [h, this.2 ⟨h, hne⟩]
    · simp [h, mt this.1 (fun hh => h hh.1)]
  · intro h11 hi
    rw [← hnv] at hi
    rw [k1.contains_eq hK (by rw [k2]; exact hi)] at h11
    rw [t.inv.contains_eq hK hi]
    have : (1, 1) ∈ g'.edgesOf := by simpa using h11
    simp [(k4 _ this).1]

example : ∃ g : DK refK2, run refK2 realSizing 4 wLost.dropLast = .ok g ∧
    decide (g.contains (0, 2) = .ok true ∧ g.rebuilds tabSizing (0, 2) = true) = true :=
  real_check (by decide) (by decide)

/-! ## C07 list_neighbour -/

/-- C07: `list_neighbour(x)` returns the successors of `x`, each once. -/
def C07_Full (S : Sizing) : Prop :=
  ∀ K : K2Impl, K.Lawful → K.ForcedPure → ∀ n ops (g : DK K) x, OpsInRange n ops → x < n →
    run K S n ops = .ok g →
      ∃ l, g.listNeighbour x = .ok l ∧ l.Nodup ∧
        ∀ y, y < n → (y ∈ l ↔ g.contains (x, y) = .ok true)

/-- A reorganisation can put every edge above `max_r`, where `list_neighbour` does not look. -/
theorem C07_refuted_of {S : Sizing} (hS : Agree tabSizing S 2 17) : ¬ C07_Full S := by
  intro h
  obtain ⟨g, hg, h1⟩ := tab_check hS (n := 3) (ops := wAbove)
    (f := fun g => decide (g.listNeighbour 1 = .ok [] ∧ g.contains (1, 0) = .ok true))
    (by decide) (by decide)
  simp only [decide_eq_true_eq] at h1
  obtain ⟨l, a1, _, a3⟩ := h refK2 refK2_lawful refK2_forcedPure 3 wAbove g 1 (by decide) (by decide) hg
  rw [h1.1] at a1; cases a1
  have := (a3 0 (by decide)).2 h1.2
  cases this

theorem C07_refuted : ¬ C07_Full realSizing := C07_refuted_of agree_tab_real

/-- On any history: `list_neighbour` returns, never reports a vertex twice and never reports a
non-successor.  Missing: completeness after a reorganisation (false, `C07_refuted`). -/
theorem C07_sound_partial (hK : K.Lawful) (hF : K.ForcedPure) (S : Sizing) {n : Nat} {ops : List Op}
    {g : DK K} {x : Nat} (ho : OpsInRange n ops) (hx : x < n) (hr : run K S n ops = .ok g) :
    ∃ l, g.listNeighbour x = .ok l ∧ l.Nodup ∧
      ∀ y ∈ l, y < n ∧ g.contains (x, y) = .ok true := by
  obtain ⟨t, hnv, _⟩ := run_track hK hF S ho hr
  obtain ⟨l, a1, a2, a3⟩ := t.inv.listNeighbour_some hK (x := x) (by rw [hnv]; exact hx)
  refine ⟨l, a1, a2, ?_⟩
  intro y hy
  have hm : (x, y) ∈ g.edgesOf := by
    rcases List.mem_append.1 ((a3 y).1 hy) with h | h
    · exact List.mem_append_left _ h
    · obtain ⟨t', h1, h2⟩ := mem_flat.1 h
      exact List.mem_append_right _ (mem_flat.2 ⟨t', List.mem_of_mem_take h1, h2⟩)
  have hr' := t.inv.range _ hm
  rw [t.inv.contains_eq hK hr']
  exact ⟨by rw [← hnv]; exact hr'.2, by simp [hm]⟩

/-- C07 in full on histories without reorganisation. -/
theorem C07_quiet_partial (hK : K.Lawful) (hF : K.ForcedPure) (S : Sizing) {n : Nat} {ops : List Op}
    {g : DK K} {x : Nat} (ho : OpsInRange n ops) (hq : Quiet K S n ops) (hx : x < n)
    (hr : run K S n ops = .ok g) :
    ∃ l, g.listNeighbour x = .ok l ∧ l.Nodup ∧ ∀ y, y ∈ l ↔ specMem ops (x, y) := by
  obtain ⟨t, hnv⟩ := run_exact hK hF S ho hq hr
  obtain ⟨l, a1, a2, a3⟩ := t.inv.listNeighbour hK t.above (x := x) (by rw [hnv]; exact hx)
  exact ⟨l, a1, a2, fun y => by rw [a3, t.mem, specMem_iff_specRun]⟩

/-- C07 on insert-only graphs, with the thresholds of the code. -/
theorem C07_insert_only_partial (hK : K.Lawful) (hF : K.ForcedPure) {n : Nat} (hn : 2 ≤ n)
    {es : List Edge} (hes : ∀ e ∈ es, InRange n e) {x : Nat} (hx : x < n) :
    ∃ g : DK K, run K realSizing n (es.map Op.add) = .ok g ∧
      ∃ l, g.listNeighbour x = .ok l ∧ l.Nodup ∧ ∀ y, y ∈ l ↔ (x, y) ∈ es := by
  obtain ⟨g, h1, _, h3, h4⟩ := run_inserts hK hF realSizing_top hn hes
  obtain ⟨l, a1, a2, a3⟩ := h4.inv.listNeighbour hK h4.above (x := x) (by rw [h3]; exact hx)
  exact ⟨g, h1, l, a1, a2, fun y => by rw [a3, h4.mem]⟩

example : ∃ g : DK refK2, run refK2 realSizing 4 (wCap ++ [.add (0, 0), .add (3, 3)]) = .ok g ∧
    decide ((g.listNeighbour 0 >>= fun l => .ok (decide (l.Nodup ∧ 0 ∈ l ∧ 1 ∈ l ∧ 2 ∈ l ∧ 3 ∈ l))) = .ok true) = true :=
  real_check (by decide) (by decide)

/-! ## C08 neigh_it -/

/-- C08: `neigh_it` calls its callback exactly on the elements of `list_neighbour(x)`, in order. -/
theorem C08_neigh_it (hK : K.Lawful) (S : Sizing) {n : Nat} {ops : List Op} {g : DK K} {x : Nat}
    (ho : OpsInRange n ops) (hr : run K S n ops = .ok g) {σ : Type} (f : σ → Nat → σ) (s : σ) :
    ∃ l, g.listNeighbour x = .ok l ∧ g.neighIt x f s = .ok (l.foldl f s) := by
  obtain ⟨w, _, _⟩ := run_weak hK S ho hr
  have h1 : ∃ l, g.listNeighbour x = .ok l := by
    unfold DK.listNeighbour
    rw [w.c0wf.listNeighbours_eq]; exact ⟨_, rfl⟩
  obtain ⟨l, hl⟩ := h1
  refine ⟨l, hl, ?_⟩
  rw [w.neighIt_eq, hl]; rfl

/-- In particular, recording the calls gives the list itself. -/
example (hK : K.Lawful) (S : Sizing) {n : Nat} {ops : List Op} {g : DK K} {x : Nat}
    (ho : OpsInRange n ops) (hr : run K S n ops = .ok g) :
    ∃ l, g.listNeighbour x = .ok l ∧ g.neighIt x (fun acc y => acc ++ [y]) [] = .ok l := by
  obtain ⟨l, h1, h2⟩ := C08_neigh_it hK S (x := x) ho hr (fun acc y => acc ++ [y]) []
  refine ⟨l, h1, ?_⟩
  rw [h2]
  have : ∀ (l acc : List Nat), l.foldl (fun acc y => acc ++ [y]) acc = acc ++ l := by
    intro l; induction l with
    | nil => simp
    | cons a l ih => intro acc; simp [ih]
  rw [this]; simp

end DK2
