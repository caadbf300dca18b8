import Verif.PropsGraph
/-!
# Properties of `DKtree`, continued: failures, capacities, reorganisation (C12–C17, C42–C45)
-/

namespace DK2
open DK

variable {K : K2Impl}

/-! ## C12 memory safety of add_edge -/

/-- C12: no history makes `add_edge` access memory out of bounds. -/
def C12_Full (S : Sizing) : Prop :=
  ∀ K : K2Impl, K.Lawful → K.ForcedPure → ∀ n ops (g : DK K) e, OpsInRange n ops → InRange n e →
    run K S n ops = .ok g → g.addEdge S e ≠ .ub

/-- Slots of erased edges are never reused, but the capacity test counts live edges only. -/
theorem C12_refuted_of {S : Sizing} (hS : Agree tabSizing S 2 17) : ¬ C12_Full S := by
  intro h
  have hub : run refK2 S 3 (wSlot.dropLast ++ [.add (2, 0)]) = .ub := wSlot_of hS
  obtain ⟨g, hg, _⟩ := tab_check hS (n := 3) (ops := wSlot.dropLast) (f := fun _ => true)
    (by decide) (by decide)
  rw [run_append, hg] at hub
  simp only [Res.ok_bind, runFrom, DK.step] at hub
  have := h refK2 refK2_lawful refK2_forcedPure 3 wSlot.dropLast g (2, 0) (by decide) (by decide) hg
  cases h' : g.addEdge S (2, 0) with
  | ok a => rw [h'] at hub; simp at hub
  | ub => exact this h'
  | throws => rw [h'] at hub; simp at hub
  | abort => rw [h'] at hub; simp at hub
  | diverge => rw [h'] at hub; simp at hub

theorem C12_refuted : ¬ C12_Full realSizing := C12_refuted_of agree_tab_real

/-- Exactly when `add_edge` is undefined: the edge is absent, the buffer holds fewer live edges than
its capacity `MAXSZ(m,0)`, yet all its slots (live or erased) are used up and growing it to
`MAXSZ(m,0)` does not add any. -/
theorem C12_exact_partial (hK : K.Lawful) (hF : K.ForcedPure) (S : Sizing) {n : Nat} {ops : List Op}
    {g : DK K} {e : Edge} (ho : OpsInRange n ops) (he : InRange n e) (hr : run K S n ops = .ok g) :
    g.addEdge S e = .ub ↔
      g.contains e = .ok false ∧ g.c0.size < S.maxsz (max n g.numberEdges) 0 ∧
        max g.c0.maxEdges (S.maxsz (max n g.numberEdges) 0) ≤ g.c0.nElements := by
  obtain ⟨t, hnv, _⟩ := run_track hK hF S ho hr
  have he' : InRange g.nv e := by rw [hnv]; exact he
  have hc := t.inv.contains_eq hK he'
  have hroom : g.c0.room S g.nTotal ↔
      ¬ max g.c0.maxEdges (S.maxsz (max n g.numberEdges) 0) ≤ g.c0.nElements := by
    unfold C0.room; rw [t.inv.c0nv, hnv, not_le]; rfl
  by_cases hm : e ∈ g.edgesOf
  · have : g.contains e = .ok true := by rw [hc]; simp [hm]
    rw [C04_add_present hF S this, this]; simp
  · have h0 : g.contains e = .ok false := by rw [hc]; simp [hm]
    have hN : g.numberEdges = g.nTotal := rfl
    have hcases := t.inv.addEdge_cases hK hF S he' hm
    rw [hnv, hroom] at hcases
    rw [hN] at *
    rcases hcases with ⟨a, b, c', h, _⟩ | ⟨a, b, h⟩ | ⟨a, b, h⟩ | ⟨a, i, t', c', _, _, _, _, _, _, _, h⟩
    · rw [h]; simp only [reduceCtorEq, false_iff]; exact fun hh => b hh.2.2
    · rw [h]; simp only [true_iff]; exact ⟨h0, a, not_not.1 b⟩
    · rw [h]; simp only [reduceCtorEq, false_iff]; exact fun hh => a hh.2.1
    · rw [h]; simp only [reduceCtorEq, false_iff]; exact fun hh => a hh.2.1

/-- Consequence: `add_edge` is safe whenever no edge was erased from the buffer since it was last
emptied. -/
theorem C12_no_erased_partial (hK : K.Lawful) (hF : K.ForcedPure) (S : Sizing) {n : Nat} {ops : List Op}
    {g : DK K} {e : Edge} (ho : OpsInRange n ops) (he : InRange n e) (hr : run K S n ops = .ok g)
    (hm : g.c0.marked = 0) : g.addEdge S e ≠ .ub := by
  intro h
  obtain ⟨_, h1, h2⟩ := (C12_exact_partial hK hF S ho he hr).1 h
  obtain ⟨t, _, _⟩ := run_track hK hF S ho hr
  have h3 := t.inv.c0wf.size_eq
  have h4 := t.inv.c0wf.marked_eq
  have h5 := t.inv.c0wf.live_length
  omega

/-- Instance: the state before the failing call is reachable and the right-hand side holds there. -/
example : ∃ g : DK refK2, run refK2 realSizing 3 wSlot.dropLast = .ok g ∧
    decide (g.contains (2, 0) = .ok false ∧ g.c0.size < tabSizing.maxsz (max 3 g.numberEdges) 0 ∧
      max g.c0.maxEdges (tabSizing.maxsz (max 3 g.numberEdges) 0) ≤ g.c0.nElements) = true :=
  real_check (by decide) (by decide)

/-! ## C13 add_edge accepts every legal edge -/

/-- C13: no history makes `add_edge` throw. -/
def C13_Full (S : Sizing) : Prop :=
  ∀ K : K2Impl, K.Lawful → K.ForcedPure → ∀ n ops (g : DK K) e, OpsInRange n ops → InRange n e →
    run K S n ops = .ok g → g.addEdge S e ≠ .throws

theorem C13_refuted_of {S : Sizing} (hS : Agree tabSizing S 2 17) : ¬ C13_Full S := by
  intro h
  have hub : run refK2 S 3 (wThrow.dropLast ++ [.add (0, 1)]) = .throws := wThrow_of hS
  obtain ⟨g, hg, _⟩ := tab_check hS (n := 3) (ops := wThrow.dropLast) (f := fun _ => true)
    (by decide) (by decide)
  rw [run_append, hg] at hub
  simp only [Res.ok_bind, runFrom, DK.step] at hub
  have := h refK2 refK2_lawful refK2_forcedPure 3 wThrow.dropLast g (0, 1) (by decide) (by decide) hg
  cases h' : g.addEdge S (0, 1) with
  | ok a => rw [h'] at hub; simp at hub
  | throws => exact this h'
  | ub => rw [h'] at hub; simp at hub
  | abort => rw [h'] at hub; simp at hub
  | diverge => rw [h'] at hub; simp at hub

theorem C13_refuted : ¬ C13_Full realSizing := C13_refuted_of agree_tab_real

/-- Exactly when `add_edge` throws: the edge is absent, the buffer is full, and at every level `i` the
buffer capacity plus everything stored (deleted edges included) in levels `0..i` reaches the level's
capacity. -/
theorem C13_exact_partial (hK : K.Lawful) (hF : K.ForcedPure) (S : Sizing) {n : Nat} {ops : List Op}
    {g : DK K} {e : Edge} (ho : OpsInRange n ops) (he : InRange n e) (hr : run K S n ops = .ok g) :
    g.addEdge S e = .throws ↔
      g.contains e = .ok false ∧ S.maxsz (max n g.numberEdges) 0 ≤ g.c0.size ∧
        ∀ i < RS, S.maxsz (max n g.numberEdges) (i + 1) ≤
          S.maxsz (max n g.numberEdges) 0 + totals K (g.ks.take (i + 1)) + 1 := by
  obtain ⟨t, hnv, _⟩ := run_track hK hF S ho hr
  have he' : InRange g.nv e := by rw [hnv]; exact he
  have hc := t.inv.contains_eq hK he'
  by_cases hm : e ∈ g.edgesOf
  · have : g.contains e = .ok true := by rw [hc]; simp [hm]
    rw [C04_add_present hF S this, this]; simp
  · have h0 : g.contains e = .ok false := by rw [hc]; simp [hm]
    have hN : g.numberEdges = g.nTotal := rfl
    have hcases := t.inv.addEdge_cases hK hF S he' hm
    have hnone := selectLevel_eq_none (K := K) S (max n g.nTotal) g.ks 0 (S.maxsz (max n g.nTotal) 0)
    simp only [Nat.zero_add, t.inv.len] at hnone
    rw [hnv] at hcases
    rw [hN] at *
    rw [← hnone]
    rcases hcases with ⟨a, b, c', h, _⟩ | ⟨a, b, h⟩ | ⟨a, b, h⟩ | ⟨a, i, t', c', b, _, _, _, _, _, _, h⟩
    · rw [h]; simp only [reduceCtorEq, false_iff]; intro hh; omega
    · rw [h]; simp only [reduceCtorEq, false_iff]; intro hh; omega
    · rw [h]; simp only [true_iff]; exact ⟨h0, by omega, b⟩
    · rw [h]; simp only [reduceCtorEq, false_iff]; intro hh; rw [b] at hh; cases hh.2.2

/-- With the thresholds of the code `add_edge` can only throw if deleted edges still occupy the
levels, or the edge count has drifted: otherwise the top level has room. -/
theorem C13_clean_partial (hK : K.Lawful) (hF : K.ForcedPure) {S : Sizing} (hT : S.Top) {n : Nat}
    {ops : List Op} {g : DK K} {e : Edge} (ho : OpsInRange n ops) (he : InRange n e)
    (hr : run K S n ops = .ok g) (hocc : g.c0.size + totals K g.ks ≤ g.numberEdges) :
    g.addEdge S e ≠ .throws := by
  intro h
  obtain ⟨_, h1, h2⟩ := (C13_exact_partial hK hF S ho he hr).1 h
  obtain ⟨t, hnv, hn1⟩ := run_track hK hF S ho hr
  have h3 := h2 7 (by simp [RS])
  have h4 : S.maxsz (max n g.numberEdges) (7 + 1) = 2 * max n g.numberEdges := hT _
  have h5 : g.ks.take (7 + 1) = g.ks := List.take_of_length_le (by rw [t.inv.len]; simp [RS])
  have := inRange_two he hn1
  rw [h4, h5] at h3
  omega

/-- Instance: the failing state of `C13_refuted` is reachable, with a full buffer. -/
example : ∃ g : DK refK2, run refK2 realSizing 3 wThrow.dropLast = .ok g ∧
    decide (g.contains (0, 1) = .ok false ∧ tabSizing.maxsz (max 3 g.numberEdges) 0 ≤ g.c0.size) = true :=
  real_check (by decide) (by decide)

/-- C12 and C13 in full for graphs built by insertions only, with the thresholds of the code. -/
theorem C12_C13_insert_only_partial (hK : K.Lawful) (hF : K.ForcedPure) {n : Nat} (hn : 2 ≤ n)
    {es : List Edge} (hes : ∀ e ∈ es, InRange n e) {e : Edge} (he : InRange n e) {g : DK K}
    (hr : run K realSizing n (es.map Op.add) = .ok g) : ∃ g', g.addEdge realSizing e = .ok g' := by
  obtain ⟨g', h1, _⟩ := C02_insert_only hK hF hn (es := es ++ [e]) (by
    intro e' he'
    rcases List.mem_append.1 he' with h | h
    · exact hes e' h
    · simp at h; exact h ▸ he)
  rw [List.map_append, run_append, hr] at h1
  simp only [List.map_cons, List.map_nil, Res.ok_bind, runFrom] at h1
  rw [Res.bind_eq_ok] at h1
  obtain ⟨g1, h1, _⟩ := h1
  exact ⟨g1, h1⟩

/-! ## C14 insertion order is irrelevant -/

/-- C14: two insertion sequences with the same set of edges give graphs with the same `contains`
answers, the same edge count and, for every vertex, neighbour lists that are permutations of each
other. -/
theorem C14_order (hK : K.Lawful) (hF : K.ForcedPure) {n : Nat} (hn : 2 ≤ n) {es es' : List Edge}
    (hes : ∀ e ∈ es, InRange n e) (hsame : ∀ e, e ∈ es ↔ e ∈ es') {g g' : DK K}
    (hr : run K realSizing n (es.map Op.add) = .ok g)
    (hr' : run K realSizing n (es'.map Op.add) = .ok g') :
    (∀ e, InRange n e → g.contains e = g'.contains e) ∧ g.numberEdges = g'.numberEdges ∧
    ∀ x, x < n → ∃ l l', g.listNeighbour x = .ok l ∧ g'.listNeighbour x = .ok l' ∧ l.Perm l' := by
  obtain ⟨g1, h1, _, h3, h4⟩ := run_inserts hK hF realSizing_top hn hes
  obtain ⟨g2, k1, _, k3, k4⟩ := run_inserts hK hF realSizing_top hn (es := es')
    (fun e he => hes e ((hsame e).2 he))
  have e1 : g1 = g := by
    have : run K realSizing n (inserts es) = .ok g := hr
    rw [h1] at this; exact Res.ok.inj this
  have e2 : g2 = g' := by
    have : run K realSizing n (inserts es') = .ok g' := hr'
    rw [k1] at this; exact Res.ok.inj this
  subst e1 e2
  have hmem : ∀ e, e ∈ g1.edgesOf ↔ e ∈ g2.edgesOf := by intro e; rw [h4.mem, k4.mem, hsame]
  refine ⟨?_, ?_, ?_⟩
  · intro e he
    rw [h4.inv.contains_eq hK (by rw [h3]; exact he), k4.inv.contains_eq hK (by rw [k3]; exact he)]
    by_cases h : e ∈ g2.edgesOf
    · simp [h, (hmem e).2 h]
    · simp [h, mt (hmem e).1 h]
  · show g1.nTotal = g2.nTotal
    rw [h4.cnt, k4.cnt]
    exact length_eq_of_mem_iff h4.inv.nodup k4.inv.nodup hmem
  · intro x hx
    obtain ⟨l, a1, a2, a3⟩ := h4.inv.listNeighbour hK h4.above (x := x) (by rw [h3]; exact hx)
    obtain ⟨l', b1, b2, b3⟩ := k4.inv.listNeighbour hK k4.above (x := x) (by rw [k3]; exact hx)
    refine ⟨l, l', a1, b1, (List.perm_ext_iff_of_nodup a2 b2).2 ?_⟩
    intro y; rw [a3, b3, hmem]

/-- Instance: a sequence, and a permutation of it with a repetition. -/
example : ∃ g g' : DK refK2,
    run refK2 realSizing 3 (([(0,1),(1,2),(2,2),(2,0)] : List Edge).map Op.add) = .ok g ∧
    run refK2 realSizing 3 (([(2,0),(2,2),(0,1),(2,0),(1,2)] : List Edge).map Op.add) = .ok g' ∧
    g.numberEdges = g'.numberEdges := by
  obtain ⟨g, h, _⟩ := C02_insert_only refK2_lawful refK2_forcedPure (n := 3) (by decide)
    (es := [(0,1),(1,2),(2,2),(2,0)]) (by decide)
  obtain ⟨g', h', _⟩ := C02_insert_only refK2_lawful refK2_forcedPure (n := 3) (by decide)
    (es := [(2,0),(2,2),(0,1),(2,0),(1,2)]) (by decide)
  exact ⟨g, g', h, h', (C14_order refK2_lawful refK2_forcedPure (by decide) (by decide) (by
    intro e; simp; tauto) h h').2.1⟩

/-! ## C15 inverse calls -/

theorem contains_congr (hK : K.Lawful) {g g' : DK K} (h : g.WInv) (h' : g'.WInv) (hnv : g'.nv = g.nv)
    {e : Edge} (he : InRange g.nv e) (hm : e ∈ g'.edgesOf ↔ e ∈ g.edgesOf) :
    g'.contains e = g.contains e := by
  rw [h'.contains_eq hK (by rw [hnv]; exact he), h.contains_eq hK he]
  by_cases hh : e ∈ g.edgesOf
  · simp [hh, hm.2 hh]
  · simp [hh, mt hm.1 hh]

/-- C15, first half, in full: adding an absent edge and deleting it restores every answer — even
`(1,1)`, even if the deletion triggers a reorganisation. -/
theorem C15_add_del (hK : K.Lawful) (hF : K.ForcedPure) (S : Sizing) {n : Nat} {ops : List Op}
    {g g1 g2 : DK K} {e : Edge} (ho : OpsInRange n ops) (he : InRange n e) (hr : run K S n ops = .ok g)
    (hc : g.contains e = .ok false) (ha : g.addEdge S e = .ok g1) (hd : g1.delEdge S e = .ok g2) :
    ∀ e', InRange n e' → g2.contains e' = g.contains e' := by
  obtain ⟨t, hnv, hn1⟩ := run_track hK hF S ho hr
  have h2 : 2 ≤ g.nv := by rw [hnv]; exact inRange_two he hn1
  rw [← hnv] at he
  have hm : e ∉ g.edgesOf := by rw [t.inv.contains_eq hK he] at hc; simpa using hc
  obtain ⟨a1, a2, a3, _, _⟩ := t.inv.addEdge hK hF S he ha
  have he1 : InRange g1.nv e := by rw [a2]; exact he
  intro e' he'
  rw [← hnv] at he'
  by_cases hq : g1.rebuilds S e = true
  · have hlive : g1.c0.live = [] := by
      rcases t.inv.addEdge_buffer hK hF S he hm ha with h | h
      · rw [rebuilds_of_live a1.toWInv h] at hq; cases hq
      · exact h
    obtain ⟨b1, b2, b3, b4, b5⟩ := a1.delEdge_rebuild hK hF S he1 (by rw [a2]; exact h2) hq hd
    refine contains_congr hK t.inv.toWInv b1.toWInv (by rw [b2, a2]) he' ?_
    rw [b3, a3]
    constructor
    · rintro ⟨h1 | h1, h3, _⟩
      · exact absurd h1 h3
      · exact h1
    · intro h1
      have hne : e' ≠ e := fun hh => hm (hh ▸ h1)
      refine ⟨Or.inr h1, hne, ?_⟩
      intro h11
      subst h11
      exact hne (b5 hlive ((a3 _).2 (Or.inr h1))).symm
  · obtain ⟨g3, b0, b1, b2, b3, _⟩ := a1.delEdge_quiet hK S he1 (by simpa using hq)
    rw [hd] at b0; cases b0
    refine contains_congr hK t.inv.toWInv b1.toWInv (by rw [b2, a2]) he' ?_
    rw [b3, a3]
    constructor
    · rintro ⟨h1 | h1, h3⟩
      · exact absurd h1 h3
      · exact h1
    · intro h1; exact ⟨Or.inr h1, fun hh => hm (hh ▸ h1)⟩

/-- C15, second half: deleting an edge and adding it back. -/
def C15_del_add_Full (S : Sizing) : Prop :=
  ∀ K : K2Impl, K.Lawful → K.ForcedPure → ∀ n ops (g g1 g2 : DK K) e, OpsInRange n ops →
    InRange n e → run K S n ops = .ok g → g.contains e = .ok true → g.delEdge S e = .ok g1 →
    g1.addEdge S e = .ok g2 → ∀ e', InRange n e' → g2.contains e' = g.contains e'

theorem C15_del_add_refuted_of {S : Sizing} (hS : Agree tabSizing S 2 17) : ¬ C15_del_add_Full S := by
  intro h
  obtain ⟨g2, hg2, h1⟩ := tab_check hS (n := 4) (ops := wLost ++ [.add (0, 2)])
    (f := fun g => g.contains (1, 1) = .ok false) (by decide) (by decide)
  obtain ⟨g1, hg1, ha⟩ := run_snoc_ok S hg2
  have hsplit : wLost = wLost.dropLast ++ [.del (0, 2)] := by decide
  rw [hsplit] at hg1
  obtain ⟨g, hg, hd⟩ := run_snoc_ok S hg1
  obtain ⟨g', hg', h2⟩ := tab_check hS (n := 4) (ops := wLost.dropLast)
    (f := fun g => decide (g.contains (1, 1) = .ok true ∧ g.contains (0, 2) = .ok true))
    (by decide) (by decide)
  rw [hg] at hg'; cases hg'
  simp only [decide_eq_true_eq] at h1 h2
  have := h refK2 refK2_lawful refK2_forcedPure 4 wLost.dropLast g g1 g2 (0, 2) (by decide) (by decide)
    hg h2.2 hd ha (1, 1) (by decide)
  rw [h1, h2.1] at this; cases this

theorem C15_del_add_refuted : ¬ C15_del_add_Full realSizing := C15_del_add_refuted_of agree_tab_real

/-- C15, second half, for every answer but that of `(1,1)` (all answers if no reorganisation or if the
edge is `(1,1)` itself). -/
theorem C15_del_add_partial (hK : K.Lawful) (hF : K.ForcedPure) (S : Sizing) {n : Nat} {ops : List Op}
    {g g1 g2 : DK K} {e : Edge} (ho : OpsInRange n ops) (he : InRange n e) (hr : run K S n ops = .ok g)
    (hc : g.contains e = .ok true) (hd : g.delEdge S e = .ok g1) (ha : g1.addEdge S e = .ok g2) :
    ∀ e', InRange n e' → (e' ≠ (1, 1) ∨ e = (1, 1) ∨ g.rebuilds S e = false) →
      g2.contains e' = g.contains e' := by
  intro e' he' hor
  have ho1 : OpsInRange n (ops ++ [.del e]) := by
    intro o h
    rcases List.mem_append.1 h with h | h
    · exact ho o h
    · simp at h; subst h; exact he
  have hr1 : run K S n (ops ++ [.del e]) = .ok g1 := by
    rw [run_append, hr]; simp only [Res.ok_bind, runFrom, DK.step, hd]
  obtain ⟨c1, c2⟩ := C06_add hK hF S ho1 he hr1 ha
  obtain ⟨d1, d2, d3⟩ := C06_del_partial hK hF S ho he hr hd
  by_cases hee : e' = e
  · rw [hee, c1, hc]
  · rw [c2 e' he' hee, d2 e' he' hee]
    rcases hor with h | h | h
    · exact Or.inl h
    · left; intro h'; exact hee (h'.trans h.symm)
    · exact Or.inr h

example : ∃ g : DK refK2, run refK2 realSizing 4 wLost.dropLast = .ok g ∧
    decide (g.contains (0, 2) = .ok true ∧ g.contains (2, 2) = .ok false) = true :=
  real_check (by decide) (by decide)

/-! ## C16 reorganisation -/

/-- C16: a deletion that triggers a reorganisation leaves the graph minus the deleted edge. -/
def C16_Full (S : Sizing) : Prop :=
  ∀ K : K2Impl, K.Lawful → K.ForcedPure → ∀ n ops (g g' : DK K) e, OpsInRange n ops → InRange n e →
    run K S n ops = .ok g → g.contains e = .ok true → g.rebuilds S e = true →
    g.delEdge S e = .ok g' →
      (∀ e', InRange n e' → (g'.contains e' = .ok true ↔ g.contains e' = .ok true ∧ e' ≠ e)) ∧
      g'.numberEdges + 1 = g.numberEdges ∧
      ∀ x, x < n → ∃ l, g'.listNeighbour x = .ok l ∧
        ∀ y, y < n → (y ∈ l ↔ g'.contains (x, y) = .ok true)

/-- `rebuilds` on a reached graph. -/
theorem rebuilds_of_count {S : Sizing} {n : Nat} {ops : List Op} {g g' : DK refK2} {e : Edge}
    (ho : OpsInRange n (ops ++ [.del e])) (hr : run refK2 S n ops = .ok g)
    (hd : g.delEdge S e = .ok g') (hc : g.contains e = .ok true)
    (hne : g'.numberEdges + 1 ≠ g.numberEdges) : g.rebuilds S e = true := by
  by_contra hq
  have he := OpsInRange.last ho
  obtain ⟨t, hnv, _⟩ := run_track refK2_lawful refK2_forcedPure S (OpsInRange.of_append ho) hr
  have he' : InRange g.nv e := by rw [hnv]; exact he
  obtain ⟨g1, b0, b1, b2, b3, b4, _⟩ := t.inv.delEdge_quiet refK2_lawful S he' (by simpa using hq)
  rw [hd] at b0; cases b0
  have hm : e ∈ g.edgesOf := by rw [t.inv.contains_eq refK2_lawful he'] at hc; simpa using hc
  rw [if_pos hm] at b4
  have h3 : 0 < g.edgesOf.length := List.length_pos_of_mem hm
  have hc := t.cnt
  have : decr g.nTotal = g.nTotal - 1 := by unfold decr; rw [if_neg (by omega)]
  apply hne
  show g'.nTotal + 1 = g.nTotal
  omega

theorem C16_refuted_of {S : Sizing} (hS : Agree tabSizing S 2 17) : ¬ C16_Full S := by
  intro h
  obtain ⟨g1, hg1, h1⟩ := tab_check hS (n := 3) (ops := wDrift)
    (f := fun g => g.numberEdges = 2) (by decide) (by decide)
  have hsplit : wDrift = wDrift.dropLast ++ [.del (2, 1)] := by decide
  rw [hsplit] at hg1
  obtain ⟨g, hg, hd⟩ := run_snoc_ok S hg1
  obtain ⟨g', hg', h2⟩ := tab_check hS (n := 3) (ops := wDrift.dropLast)
    (f := fun g => decide (g.numberEdges = 2 ∧ g.contains (2, 1) = .ok true)) (by decide) (by decide)
  rw [hg] at hg'; cases hg'
  simp only [decide_eq_true_eq] at h1 h2
  have hne : g1.numberEdges + 1 ≠ g.numberEdges := by rw [h1, h2.1]; decide
  have hrb := rebuilds_of_count (ops := wDrift.dropLast) (e := (2, 1)) (by decide) hg hd h2.2 hne
  exact hne (h refK2 refK2_lawful refK2_forcedPure 3 wDrift.dropLast g g1 (2, 1) (by decide) (by decide)
    hg h2.2 hrb hd).2.1

theorem C16_refuted : ¬ C16_Full realSizing := C16_refuted_of agree_tab_real

/-- What a reorganisation does: membership is exact except for `(1,1)`, which is removed; the counter
is one too high exactly when the buffer was empty or `(1,1)` was dropped.  `list_neighbour` is
`C16_neighbour_partial`.  Missing: `(1,1)`, the counter and completeness of `list_neighbour` (all false). -/
theorem C16_partial (hK : K.Lawful) (hF : K.ForcedPure) (S : Sizing) {n : Nat} {ops : List Op}
    {g g' : DK K} {e : Edge} (ho : OpsInRange n ops) (he : InRange n e) (hr : run K S n ops = .ok g)
    (hq : g.rebuilds S e = true) (hd : g.delEdge S e = .ok g') :
    (∀ e', InRange n e' →
      (g'.contains e' = .ok true ↔ g.contains e' = .ok true ∧ e' ≠ e ∧ e' ≠ (1, 1))) ∧
    (g.contains e = .ok true →
      g'.numberEdges + 1 = g.numberEdges + (if g.c0.size = 0 then 1 else 0)) ∧
    (g.contains e = .ok false →
      g'.numberEdges = g.numberEdges + (if g.c0.size = 0 then 1 else 0)) ∧
    (g.c0.size = 0 → g.contains (1, 1) = .ok true → e = (1, 1)) := by
  obtain ⟨t, hnv, hn1⟩ := run_track hK hF S ho hr
  have h2 : 2 ≤ g.nv := by rw [hnv]; exact inRange_two he hn1
  rw [← hnv] at he
  obtain ⟨a1, a2, a3, a4, a5⟩ := t.inv.delEdge_rebuild hK hF S he h2 hq hd
  have hsz : g.c0.size = 0 ↔ g.c0.live = [] := by
    rw [t.inv.c0wf.size_eq, List.length_eq_zero_iff]
  refine ⟨?_, ?_, ?_, ?_⟩
  · intro e' he'
    rw [← hnv] at he'
    rw [a1.contains_eq hK (by rw [a2]; exact he'), t.inv.contains_eq hK he']
    simpa using a3 e'
  · intro hc
    have hm : e ∈ g.edgesOf := by rw [t.inv.contains_eq hK he] at hc; simpa using hc
    have h3 : 0 < g.edgesOf.length := List.length_pos_of_mem hm
    have hcn := t.cnt
    have hdec : decr g.nTotal = g.nTotal - 1 := by unfold decr; rw [if_neg (by omega)]
    show g'.nTotal + 1 = g.nTotal + _
    rw [a4, if_pos hm, hdec]
    by_cases h0 : g.c0.live = []
    · rw [if_pos h0, if_pos (hsz.2 h0)]; omega
    · rw [if_neg h0, if_neg (mt hsz.1 h0)]; omega
  · intro hc
    have hm : e ∉ g.edgesOf := by rw [t.inv.contains_eq hK he] at hc; simpa using hc
    show g'.nTotal = g.nTotal + _
    rw [a4, if_neg hm]
    by_cases h0 : g.c0.live = []
    · rw [if_pos h0, if_pos (hsz.2 h0)]
    · rw [if_neg h0, if_neg (mt hsz.1 h0)]
  · intro h0 h11
    have hi : InRange g.nv (1, 1) := ⟨h2, h2⟩
    have : (1, 1) ∈ g.edgesOf := by rw [t.inv.contains_eq hK hi] at h11; simpa using h11
    exact a5 (hsz.1 h0) this

/-- Instance: a reachable state where a deletion triggers the reorganisation. -/
example : ∃ (g g' : DK refK2), run refK2 realSizing 3 wDrift.dropLast = .ok g ∧
    g.delEdge realSizing (2, 1) = .ok g' ∧ g.rebuilds realSizing (2, 1) = true := by
  obtain ⟨g1, hg1, h1⟩ := real_check (n := 3) (ops := wDrift)
    (f := fun g => g.numberEdges = 2) (by decide) (by decide)
  have hsplit : wDrift = wDrift.dropLast ++ [.del (2, 1)] := by decide
  rw [hsplit] at hg1
  obtain ⟨g, hg, hd⟩ := run_snoc_ok realSizing hg1
  obtain ⟨g', hg', h2⟩ := real_check (n := 3) (ops := wDrift.dropLast)
    (f := fun g => decide (g.numberEdges = 2 ∧ g.contains (2, 1) = .ok true)) (by decide) (by decide)
  rw [hg] at hg'; cases hg'
  simp only [decide_eq_true_eq] at h1 h2
  exact ⟨g, g1, hg, hd, rebuilds_of_count (ops := wDrift.dropLast) (by decide) hg hd h2.2
    (by rw [h1, h2.1]; decide)⟩

/-! ## C17 vertex count -/

/-- C17: `get_number_nodes` is the constructor argument after any history (any lawful tree, any
`adj_forced`). -/
theorem C17_nodes (hK : K.Lawful) (S : Sizing) {n : Nat} {ops : List Op} {g : DK K}
    (ho : OpsInRange n ops) (hr : run K S n ops = .ok g) : g.numberNodes = n :=
  (run_weak hK S ho hr).2.1

example : ∃ g : DK refK2, run refK2 realSizing 4 wLost = .ok g ∧ decide (g.numberNodes = 4) = true :=
  real_check (by decide) (by decide)

/-! ## C42 level capacities -/

/-- C42: the level that receives a new edge in a flush holds fewer edges than its capacity. -/
def C42_Full (S : Sizing) : Prop :=
  ∀ K : K2Impl, K.Lawful → K.ForcedPure → ∀ n ops (g g' : DK K) e, OpsInRange n ops → InRange n e →
    run K S n ops = .ok g → g.contains e = .ok false → g.addEdge S e = .ok g' →
    ∀ i t, g'.ks[i]? = some (some t) → e ∈ K.edges t →
      (K.edges t).length < S.maxsz (max n g.numberEdges) (i + 1)

/-- The flush level is chosen from the capacity `MAXSZ(m,0)` of the buffer, not from the number of edges
in it; `MAXSZ(m,0)` is not monotone in `m` below 8, so the buffer may hold more. -/
theorem C42_refuted_of {S : Sizing} (hS : Agree tabSizing S 2 17) : ¬ C42_Full S := by
  intro h
  obtain ⟨g1, hg1, h1⟩ := tab_check hS (n := 4) (ops := wCap ++ [.add (1, 1)])
    (f := fun g => match g.ks[2]? with
      | some (some t) => decide ((1, 1) ∈ t.live ∧ t.live.length = 3)
      | _ => false) (by decide) (by decide)
  obtain ⟨g, hg, ha⟩ := run_snoc_ok S hg1
  obtain ⟨g', hg', h2⟩ := tab_check hS (n := 4) (ops := wCap)
    (f := fun g => decide (g.numberEdges = 5 ∧ g.contains (1, 1) = .ok false)) (by decide) (by decide)
  rw [hg] at hg'; cases hg'
  simp only [decide_eq_true_eq] at h2
  split at h1
  · rename_i t ht
    simp only [decide_eq_true_eq] at h1
    have := h refK2 refK2_lawful refK2_forcedPure 4 wCap g g1 (1, 1) (by decide) (by decide) hg h2.2 ha
      2 t ht h1.1
    rw [h2.1] at this
    have e1 : S.maxsz (max 4 5) (2 + 1) = 3 := by
      rw [← hS.maxsz _ _ (by decide) (by decide) (by decide)]; decide
    rw [e1] at this
    have : t.live.length < 3 := this
    omega
  · cases h1

theorem C42_refuted : ¬ C42_Full realSizing := C42_refuted_of agree_tab_real

/-- The bound that does hold: the level exceeds its capacity by less than the amount by which the
buffer exceeds its own. -/
theorem C42_general_partial (hK : K.Lawful) (hF : K.ForcedPure) (S : Sizing) {n : Nat} {ops : List Op}
    {g g' : DK K} {e : Edge} (ho : OpsInRange n ops) (he : InRange n e) (hr : run K S n ops = .ok g)
    (hc : g.contains e = .ok false) (ha : g.addEdge S e = .ok g') {i : Nat} {t : K.T}
    (hi : g'.ks[i]? = some (some t)) (het : e ∈ K.edges t) :
    (K.edges t).length + S.maxsz (max n g.numberEdges) 0 <
      S.maxsz (max n g.numberEdges) (i + 1) + g.c0.size := by
  obtain ⟨tr, hnv, _⟩ := run_track hK hF S ho hr
  rw [← hnv] at he
  have hm : e ∉ g.edgesOf := by rw [tr.inv.contains_eq hK he] at hc; simpa using hc
  have hN : g.numberEdges = g.nTotal := rfl
  have hcases := tr.inv.addEdge_cases hK hF S he hm
  rw [hnv] at hcases
  rw [hN]
  rcases hcases with ⟨_, _, c', h, _⟩ | ⟨_, _, h⟩ | ⟨_, _, h⟩ | ⟨h0, j, u, c', hs, hj, hv, hu, _, _, _, h⟩
  · rw [h] at ha; cases ha
    exact absurd (List.mem_append_right _ (mem_flat.2 ⟨t, List.mem_of_getElem? hi, het⟩)) hm
  · rw [h] at ha; cases ha
  · rw [h] at ha; cases ha
  · rw [h] at ha; cases ha
    -- locate the level
    have hji : i = j ∧ t = u := by
      simp only at hi
      rcases Nat.lt_trichotomy i j with hlt | heq | hgt
      · rw [List.getElem?_append_left (by simpa using hlt)] at hi
        simp [hlt] at hi
      · subst heq
        rw [List.getElem?_append_right (by simp)] at hi
        simp at hi; exact ⟨rfl, hi.symm⟩
      · exfalso
        rw [List.getElem?_append_right (by simp; omega)] at hi
        simp only [List.length_replicate] at hi
        obtain ⟨d, hd⟩ : ∃ d, i - j = d + 1 := ⟨i - j - 1, by omega⟩
        rw [hd, List.getElem?_cons_succ] at hi
        have := List.mem_of_mem_drop (List.mem_of_getElem? hi)
        exact hm (List.mem_append_right _ (mem_flat.2 ⟨t, this, het⟩))
    obtain ⟨rfl, rfl⟩ := hji
    have hsel := selectLevel_eq_some S _ _ _ _ _ hs
    rw [Nat.sub_zero] at hsel
    have hv' : AllValid K g.nv (g.ks.take (i + 1)) := tr.inv.val.take
    have hle := flat_le_totals hK hv'
    have hlen : (K.edges t).length ≤ (g.c0.live ++ e :: flat K (g.ks.take (i + 1))).length :=
      (List.subperm_of_subset (hK.edges_nodup _ _ hv) (fun e' he' => by
        rcases (hu e').1 he' with h1 | h1 | h1
        · exact List.mem_append_left _ h1
        · rw [h1]; simp
        · simp [h1])).length_le
    rw [List.length_append, List.length_cons, ← tr.inv.c0wf.size_eq] at hlen
    have h0' := h0
    omega

/-- In an insert-only graph with at least 8 vertices the buffer never exceeds its capacity. -/
theorem buffer_le (hK : K.Lawful) (hF : K.ForcedPure) {n : Nat} (hn : 8 ≤ n) :
    ∀ {es : List Edge} {g : DK K}, (∀ e ∈ es, InRange n e) → run K realSizing n (inserts es) = .ok g →
      g.c0.size ≤ realSizing.maxsz (max n g.nTotal) 0 := by
  intro es
  induction es using List.reverseRecOn with
  | nil =>
    intro g _ hr
    obtain ⟨rfl, _⟩ := run_nil hr
    simp [init, C0.size, C0.new]
  | append_singleton es e ih =>
    intro g hes hr
    have hsp : inserts (es ++ [e]) = inserts es ++ [.add e] := by simp [inserts]
    rw [hsp] at hr
    obtain ⟨g0, h0, ha⟩ := run_snoc_ok realSizing hr
    have hes' : ∀ e' ∈ es, InRange n e' := fun e' h => hes e' (by simp [h])
    have hle := ih hes' h0
    have hops : OpsInRange n (inserts es) := by
      intro o ho
      obtain ⟨e', h1, rfl⟩ := List.mem_map.1 ho
      exact hes' e' h1
    obtain ⟨tr, hnv, _⟩ := run_track hK hF realSizing hops h0
    have he : InRange g0.nv e := by rw [hnv]; exact hes e (by simp)
    have ha' : g0.addEdge realSizing e = .ok g := ha
    by_cases hm : e ∈ g0.edgesOf
    · have := (tr.inv.addEdge hK hF realSizing he ha').2.2.2.1 hm
      rw [this]; exact hle
    · have hcases := tr.inv.addEdge_cases hK hF realSizing he hm
      rw [hnv] at hcases
      rcases hcases with ⟨hlt, _, c', h, w, hl, _⟩ | ⟨_, _, h⟩ | ⟨_, _, h⟩ |
        ⟨_, j, u, c', _, _, _, _, w, hl, _, h⟩
      · rw [h] at ha'; cases ha'
        simp only
        rw [w.size_eq, hl, List.length_append, ← tr.inv.c0wf.size_eq]
        have := realSizing_mono (max n g0.nTotal) (max n (g0.nTotal + 1)) (by omega) (by omega)
        simp only [List.length_cons, List.length_nil]
        omega
      · rw [h] at ha'; cases ha'
      · rw [h] at ha'; cases ha'
      · rw [h] at ha'; cases ha'
        simp only
        rw [w.size_eq, hl]; simp

/-- C42 in full for insert-only graphs with at least 8 vertices and the thresholds of the code. -/
theorem C42_insert_only_partial (hK : K.Lawful) (hF : K.ForcedPure) {n : Nat} (hn : 8 ≤ n)
    {es : List Edge} (hes : ∀ e ∈ es, InRange n e) {g g' : DK K}
    (hr : run K realSizing n (es.map Op.add) = .ok g) {e : Edge} (he : InRange n e)
    (hc : g.contains e = .ok false) (ha : g.addEdge realSizing e = .ok g') {i : Nat} {t : K.T}
    (hi : g'.ks[i]? = some (some t)) (het : e ∈ K.edges t) :
    (K.edges t).length < realSizing.maxsz (max n g.numberEdges) (i + 1) := by
  have hops : OpsInRange n (es.map Op.add) := by
    intro o ho
    obtain ⟨e', h1, rfl⟩ := List.mem_map.1 ho
    exact hes e' h1
  have h1 := C42_general_partial hK hF realSizing hops he hr hc ha hi het
  have h2 := buffer_le hK hF hn hes hr
  have hN : g.numberEdges = g.nTotal := rfl
  rw [hN] at h1 ⊢
  omega

/-- Instance: a flush on 8 vertices. -/
example : ∃ g : DK refK2, run refK2 realSizing 8 [.add (0,0), .add (7,7)] = .ok g ∧
    decide ((g.ks.any (fun o => o.any (fun t => decide ((7, 7) ∈ t.live)))) = true) = true :=
  real_check (by decide) (by decide)

/-! ## C43 add_edge whatever adj_forced does -/

/-- C43: for every tree meeting the contract, `adj_forced` reviving edges or not, after `add_edge(e)`
returns `contains(e)` is true (and no other answer is lost). -/
theorem C43_add_any_forced (hK : K.Lawful) (S : Sizing) {n : Nat} {ops : List Op} {g g' : DK K}
    {e : Edge} (ho : OpsInRange n ops) (he : InRange n e) (hr : run K S n ops = .ok g)
    (ha : g.addEdge S e = .ok g') :
    g'.contains e = .ok true ∧
    ∀ e', InRange n e' → e' ≠ e → g'.contains e' = g.contains e' := by
  obtain ⟨w, hnv, _⟩ := run_weak hK S ho hr
  rw [← hnv] at he
  obtain ⟨a1, a2, a3⟩ := w.addEdge hK S he ha
  refine ⟨?_, ?_⟩
  · rw [a1.contains_eq hK (by rw [a2]; exact he)]
    simp [(a3 e).2 (Or.inl rfl)]
  · intro e' he' hne
    rw [← hnv] at he'
    exact contains_congr hK w a1 a2 he' (by rw [a3]; simp [hne])

/-- The contract also admits a tree whose `adj_forced` revives erased edges. -/
example : refK2Forced.Lawful ∧ ¬ refK2Forced.ForcedPure := by
  refine ⟨refK2Forced_lawful, ?_⟩
  intro h
  have := congrArg Prod.fst (h ⟨3, [], [(0, 0)]⟩ (0, 0))
  exact absurd this (by decide)

/-! ## C44 every edge in one place -/

/-- C44: at most one of the containers (buffer, levels) answers yes for an edge, and `contains` is true
iff exactly one does. -/
theorem C44_one_place (hK : K.Lawful) (hF : K.ForcedPure) (S : Sizing) {n : Nat} {ops : List Op}
    {g : DK K} (ho : OpsInRange n ops) (hr : run K S n ops = .ok g) {e : Edge} (he : InRange n e) :
    ((if g.c0.contains e = .ok true then 1 else 0) +
      (g.ks.filter (fun o => o.any (fun t => K.adj t e))).length) =
      (if g.contains e = .ok true then 1 else 0) := by
  obtain ⟨t, hnv, _⟩ := run_track hK hF S ho hr
  rw [← hnv] at he
  have key : ∀ ks : List (Option K.T), AllValid K g.nv ks → (flat K ks).Nodup →
      (ks.filter (fun o => o.any (fun t => K.adj t e))).length = if e ∈ flat K ks then 1 else 0 := by
    intro ks
    induction ks with
    | nil => intro _ _; simp
    | cons o ks ih =>
      intro hv hnd
      cases o with
      | none =>
        rw [List.filter_cons_of_neg (by simp), flat_none]
        exact ih hv.tail (by simpa using hnd)
      | some u =>
        rw [flat_some, List.nodup_append] at hnd
        have := ih hv.tail hnd.2.1
        have hadj := hK.adj_iff g.nv u e hv.head he
        rw [List.filter_cons]
        by_cases hu : e ∈ K.edges u
        · have hn : e ∉ flat K ks := fun h => hnd.2.2 _ hu _ h rfl
          rw [if_neg hn] at this
          simp [hadj.2 hu, this, hu]
        · have hf : K.adj u e = false := by
            cases hh : K.adj u e with
            | false => rfl
            | true => exact absurd (hadj.1 hh) hu
          simp only [Option.any_some, hf, Bool.false_eq_true, if_false, this]
          by_cases hn : e ∈ flat K ks <;> simp [hn, hu]
  have hnd := t.inv.nodup
  unfold edgesOf at hnd
  rw [List.nodup_append] at hnd
  rw [key g.ks t.inv.val hnd.2.1, t.inv.c0wf.contains_eq, t.inv.contains_eq hK he]
  unfold edgesOf
  by_cases h1 : e ∈ g.c0.live
  · have h2 : e ∉ flat K g.ks := fun h => hnd.2.2 _ h1 _ h rfl
    simp [h1, h2]
  · by_cases h2 : e ∈ flat K g.ks <;> simp [h1, h2]

example : ∃ g : DK refK2, run refK2 realSizing 4 wLost = .ok g ∧
    decide (g.contains (3, 0) = .ok true ∧ g.c0.contains (3, 0) = .ok false) = true :=
  real_check (by decide) (by decide)

/-! ## C45 del_edge never fails -/

/-- C45: `del_edge` of an in-range edge always returns. -/
def C45_Full (S : Sizing) : Prop :=
  ∀ K : K2Impl, K.Lawful → K.ForcedPure → ∀ n ops (g : DK K) e, OpsInRange n ops → InRange n e →
    run K S n ops = .ok g → ∃ g', g.delEdge S e = .ok g'

/-- The reorganisation dereferences a null tree when the buffer is empty and `(1,1)` is in a level. -/
theorem C45_refuted_of {S : Sizing} (hS : Agree tabSizing S 2 17) : ¬ C45_Full S := by
  intro h
  have hub : run refK2 S 3 (wNull.dropLast ++ [.del (0, 1)]) = .ub := wNull_of hS
  obtain ⟨g, hg, _⟩ := tab_check hS (n := 3) (ops := wNull.dropLast) (f := fun _ => true)
    (by decide) (by decide)
  rw [run_append, hg] at hub
  simp only [Res.ok_bind, runFrom, DK.step] at hub
  obtain ⟨g', h'⟩ := h refK2 refK2_lawful refK2_forcedPure 3 wNull.dropLast g (0, 1) (by decide)
    (by decide) hg
  rw [h'] at hub; simp at hub

theorem C45_refuted : ¬ C45_Full realSizing := C45_refuted_of agree_tab_real

/-- `del_edge` returns when it triggers no reorganisation, or when the buffer is not empty.
Missing: reorganisation with an empty buffer (fails, `C45_refuted`). -/
theorem C45_partial (hK : K.Lawful) (hF : K.ForcedPure) {S : Sizing} (hT : S.Top) {n : Nat}
    {ops : List Op} {g : DK K} {e : Edge} (ho : OpsInRange n ops) (he : InRange n e)
    (hr : run K S n ops = .ok g) (h : g.rebuilds S e = false ∨ g.c0.size ≠ 0) :
    ∃ g', g.delEdge S e = .ok g' := by
  obtain ⟨t, hnv, hn1⟩ := run_track hK hF S ho hr
  rw [← hnv] at he
  rcases h with h | h
  · obtain ⟨g', h', _⟩ := t.inv.delEdge_quiet hK S he h
    exact ⟨g', h'⟩
  · refine t.inv.delEdge_ok hK hT he ?_
    intro hl
    rw [t.inv.c0wf.size_eq, hl] at h; exact h rfl

/-- The thresholds of the code satisfy `Top`, and a state with a non-empty buffer where the deletion
hits a level is reachable. -/
example : realSizing.Top ∧ ∃ g : DK refK2, run refK2 realSizing 4 wLost.dropLast = .ok g ∧
    decide (g.c0.size ≠ 0 ∧ g.c0.contains (0, 2) = .ok false ∧ g.contains (0, 2) = .ok true) = true :=
  ⟨realSizing_top, real_check (by decide) (by decide)⟩

end DK2
