import Verif.PropsGraph2
import Verif.RealTab
/-!
# `del_edge`: exactly when it fails (C45), and `list_neighbour` after a reorganisation (C16)
-/

namespace DK2
open DK

variable {K : K2Impl}

namespace DK

/-- The reorganisation of a graph whose buffer is empty: undefined if `(1,1)` is stored, or if the
buffer has no room for the filler `(1,1)`; otherwise it returns. -/
theorem Inv.rebuild_empty (hK : K.Lawful) (hF : K.ForcedPure) {S : Sizing} (hT : S.Top) {g : DK K}
    (h : g.Inv) (hnv : 2 ≤ g.nv) (hl : g.c0.live = []) (hpos : 0 < S.maxsz (max g.nv g.nTotal) 0) :
    ((1, 1) ∈ g.edgesOf → g.rebuild S = .ub) ∧
    ((1, 1) ∉ g.edgesOf → ¬ g.c0.room S g.nTotal → g.rebuild S = .ub) ∧
    ((1, 1) ∉ g.edgesOf → g.c0.room S g.nTotal → ∃ g', g.rebuild S = .ok g') := by
  have h11 : InRange g.nv (1, 1) := ⟨by simp; omega, by simp; omega⟩
  have h0 : g.c0.size = 0 := by rw [h.c0wf.size_eq, hl]; rfl
  have hc := h.contains_eq hK h11
  refine ⟨?_, ?_, ?_⟩
  · intro hm
    have hct : g.contains (1, 1) = .ok true := by rw [hc]; simp [hm]
    have hadd := C04_add_present hF S hct
    obtain ⟨t, ht, _⟩ := mem_flat.1 ((mem_of_size_zero h.toWInv h0).1 hm)
    unfold DK.rebuild rebuildPrep
    rw [if_pos h0, hct]
    simp only [Res.ok_bind, hadd, rebuildDrain]
    rw [if_neg (by omega)]
    simp only [Res.ok_bind, mergeAll_none _ t ht]
    rfl
  · intro hm hroom
    rcases h.addEdge_cases hK hF S h11 hm with ⟨_, a, _⟩ | ⟨_, _, a⟩ | ⟨a, _⟩ | ⟨a, _⟩
    · exact absurd a hroom
    · unfold DK.rebuild rebuildPrep
      rw [if_pos h0, hc, Res.ok_bind, a]
      rfl
    · omega
    · omega
  · intro hm hroom
    rcases h.addEdge_cases hK hF S h11 hm with ⟨_, _, c', a, wf, lv, _⟩ | ⟨_, a, _⟩ | ⟨a, _⟩ | ⟨a, _⟩
    · have hi := (h.addEdge hK hF S h11 a).1
      obtain ⟨c1, b1, _⟩ := wf.clean_ok
      have hsz : c'.size = 1 := by rw [wf.size_eq, lv, hl]; rfl
      have hv := hK.build_valid c'.live g.nv wf.live_nodup
        (fun e he => hi.range e (List.mem_append_left _ he))
      obtain ⟨t, t1, _⟩ := mergeAll_some hK g.ks (K.build c'.live g.nv) hv h.val
      have hlt : rebuildLevel S (max g.nv g.nTotal) g.nTotal < RS := rebuildLevel_lt hT (by omega)
      unfold DK.rebuild rebuildPrep
      rw [if_pos h0, hc, Res.ok_bind, a]
      simp only [Res.ok_bind, rebuildDrain]
      rw [if_pos (by omega), wf.converted_eq]
      simp only [Res.ok_bind, b1, t1]
      rw [wr_of (by simpa using hlt)]
      simp [hm]
    · exact absurd hroom a
    · omega
    · omega

/-- `del_edge` that reorganises with an empty buffer, from the state before the call. -/
theorem Inv.delEdge_empty (hK : K.Lawful) (hF : K.ForcedPure) {S : Sizing} (hT : S.Top)
    (hP : ∀ m, 2 ≤ m → 0 < S.maxsz m 0) {g : DK K} (h : g.Inv) {e : Edge} (he : InRange g.nv e)
    (hnv : 2 ≤ g.nv) (hl : g.c0.live = []) (hq : g.rebuilds S e = true) :
    let N := if e ∈ g.edgesOf then decr g.nTotal else g.nTotal
    (((1, 1) ∈ g.edgesOf ∧ e ≠ (1, 1)) ∨ ¬ g.c0.room S N → g.delEdge S e = .ub) ∧
    (((1, 1) ∈ g.edgesOf → e = (1, 1)) → g.c0.room S N → ∃ g', g.delEdge S e = .ok g') := by
  intro N
  obtain ⟨c', a1, a2, a3, a4, a5, a6⟩ := h.c0wf.erase_ok e
  have hm : e ∉ g.c0.live := by rw [hl]; simp
  have hcc : g.c0 = c' := by
    have := h.c0wf.not_mem_live.1 hm
    unfold C0.erase at a1
    rw [this] at a1
    simp only [Res.ok.injEq, Prod.mk.injEq] at a1
    exact a1.2
  subst hcc
  unfold rebuilds at hq
  unfold DK.delEdge
  rw [a1] at hq ⊢
  simp only [Res.ok_bind]
  simp only [hm, decide_false, Bool.false_eq_true, if_false] at hq ⊢
  obtain ⟨b1, b2, b3, b4, b5, b6, b7⟩ := h.afterErase hK he hm
  rw [if_pos hq]
  obtain ⟨r1, r2, r3⟩ := b1.rebuild_empty hK hF hT (by rw [b2]; exact hnv) (by rw [b6]; exact hl)
    (hP _ (by rw [b2]; omega))
  rw [b4, b6] at r2 r3
  rw [b3] at r1 r2 r3
  refine ⟨?_, ?_⟩
  · rintro (hh | hh)
    · exact r1 ⟨hh.1, fun h => hh.2 h.symm⟩
    · by_cases h11 : (1, 1) ∈ g.edgesOf ∧ (1, 1) ≠ e
      · exact r1 h11
      · exact r2 h11 hh
  · intro hh hr
    exact r3 (fun hx => hx.2 (hh hx.1).symm) hr

/-- Where the reorganisation leaves the edges: in one tree at the level it chose before. -/
theorem Inv.rebuild_level (hK : K.Lawful) (hF : K.ForcedPure) (S : Sizing) {g g' : DK K} (h : g.Inv)
    (hnv : 2 ≤ g.nv) (hpos : 0 < S.maxsz (max g.nv g.nTotal) 0) (hr : g.rebuild S = .ok g') :
    g'.maxR = g.maxR ∧ ∃ t, g'.ks = (List.replicate RS none).set (rebuildLevel S (max g.nv g.nTotal) g.nTotal) (some t) := by
  have h11 : InRange g.nv (1, 1) := ⟨by simp; omega, by simp; omega⟩
  unfold DK.rebuild at hr
  rw [Res.bind_eq_ok] at hr
  obtain ⟨⟨oo, g1⟩, hprep, hr⟩ := hr
  rw [Res.bind_eq_ok] at hr
  obtain ⟨⟨tmp, c1⟩, hdrain, hr⟩ := hr
  rw [Res.bind_eq_ok] at hr
  obtain ⟨tmp', hmerge, hr⟩ := hr
  rw [Res.bind_eq_ok] at hr
  obtain ⟨ks, hks, hr⟩ := hr
  rw [wr_eq_ok] at hks
  obtain ⟨hi, rfl⟩ := hks
  simp only at hdrain hmerge hr
  have hp : oo = false ∧ g1.maxR = g.maxR := by
    unfold rebuildPrep at hprep
    split at hprep
    · rename_i h0
      rw [h.contains_eq hK h11] at hprep
      simp only [Res.ok_bind] at hprep
      rw [Res.bind_eq_ok] at hprep
      obtain ⟨g2, hadd, hp2⟩ := hprep
      simp only [Res.ok.injEq, Prod.mk.injEq] at hp2
      obtain ⟨rfl, rfl⟩ := hp2
      by_cases hm : (1, 1) ∈ g.edgesOf
      · exfalso
        have hct : g.contains (1, 1) = .ok true := by rw [h.contains_eq hK h11]; simp [hm]
        rw [C04_add_present hF S hct] at hadd
        cases hadd
        unfold rebuildDrain at hdrain
        rw [if_neg (by omega)] at hdrain
        simp only [Res.ok.injEq, Prod.mk.injEq] at hdrain
        obtain ⟨rfl, rfl⟩ := hdrain
        obtain ⟨t, ht, _⟩ := mem_flat.1 ((mem_of_size_zero h.toWInv h0).1 hm)
        rw [mergeAll_none _ t ht] at hmerge
        cases hmerge
      · rcases h.addEdge_cases hK hF S h11 hm with ⟨_, _, c', a, _⟩ | ⟨_, _, a⟩ | ⟨_, _, a⟩ | ⟨a, _⟩
        · rw [a] at hadd; cases hadd; exact ⟨by simp [hm], rfl⟩
        · rw [a] at hadd; cases hadd
        · rw [a] at hadd; cases hadd
        · omega
    · simp only [Res.ok.injEq, Prod.mk.injEq] at hprep
      obtain ⟨rfl, rfl⟩ := hprep
      exact ⟨rfl, rfl⟩
  obtain ⟨rfl, hmr⟩ := hp
  simp only [Bool.false_eq_true, if_false] at hr
  cases htmp : tmp' with
  | none => rw [htmp] at hr; simp at hr
  | some t =>
    rw [htmp] at hr
    simp only [Res.ok.injEq] at hr
    subst hr
    exact ⟨hmr, _, by rw [List.set_set]⟩

end DK

/-! ## C16, list_neighbour after a reorganisation -/

/-- The level a reorganisation chooses for a graph of `n` vertices and `N` edges: the first level whose
successor's capacity exceeds `N` (`RS` if there is none). -/
theorem rebuildLevel_spec (S : Sizing) (m N : Nat) :
    (∀ j < rebuildLevel S m N, S.maxsz m (j + 1) ≤ N) ∧
    (rebuildLevel S m N < RS → N < S.maxsz m (rebuildLevel S m N + 1)) := by
  unfold rebuildLevel
  cases hf : (List.range RS).find? (fun i => decide (S.maxsz m (i + 1) > N)) with
  | none =>
    rw [List.find?_eq_none] at hf
    refine ⟨?_, by simp⟩
    intro j hj
    have := hf j (by simpa using hj)
    simpa using this
  | some i =>
    rw [List.find?_range_eq_some] at hf
    refine ⟨?_, fun _ => by simpa using hf.1⟩
    intro j hj
    have := hf.2.2 j hj
    simpa using this

namespace DK

theorem Inv.delEdge_level (hK : K.Lawful) (hF : K.ForcedPure) (S : Sizing)
    (hP : ∀ m, 2 ≤ m → 0 < S.maxsz m 0) {g g' : DK K} (h : g.Inv) {e : Edge} (he : InRange g.nv e)
    (hnv : 2 ≤ g.nv) (hq : g.rebuilds S e = true) (hr : g.delEdge S e = .ok g') :
    let N := if e ∈ g.edgesOf then decr g.nTotal else g.nTotal
    g'.maxR = g.maxR ∧ g'.c0.live = [] ∧
      ∃ t, g'.ks = (List.replicate RS none).set (rebuildLevel S (max g.nv N) N) (some t) := by
  intro N
  obtain ⟨c', a1, a2, a3, a4, a5, a6⟩ := h.c0wf.erase_ok e
  have hm : e ∉ g.c0.live := by
    intro hm
    rw [rebuilds_of_live h.toWInv hm] at hq; cases hq
  have hcc : g.c0 = c' := by
    have := h.c0wf.not_mem_live.1 hm
    unfold C0.erase at a1
    rw [this] at a1
    simp only [Res.ok.injEq, Prod.mk.injEq] at a1
    exact a1.2
  subst hcc
  unfold rebuilds at hq
  unfold DK.delEdge at hr
  rw [a1] at hq hr
  simp only [Res.ok_bind] at hr
  simp only [hm, decide_false, Bool.false_eq_true, if_false] at hq hr
  obtain ⟨b1, b2, b3, b4, b5, b6, b7⟩ := h.afterErase hK he hm
  rw [if_pos hq] at hr
  have h2 : 2 ≤ (g.afterErase e).2.nv := by rw [b2]; exact hnv
  obtain ⟨r1, t, r2⟩ := b1.rebuild_level hK hF S h2 (hP _ (by omega)) hr
  obtain ⟨_, _, _, _, _, d6⟩ := b1.rebuild hK hF S h2 hr
  rw [b4, b2] at r2
  exact ⟨by rw [r1, b5], d6, t, r2⟩

end DK

/-- After a reorganisation `list_neighbour` is exact if the level chosen for the rebuilt tree (the first
one whose successor's capacity exceeds the number of edges) is not above `max_r`, and otherwise
reports nothing at all for any vertex. -/
theorem C16_neighbour_partial (hK : K.Lawful) (hF : K.ForcedPure) {S : Sizing}
    (hP : ∀ m, 2 ≤ m → 0 < S.maxsz m 0) {n : Nat} {ops : List Op} {g g' : DK K} {e : Edge} {N L : Nat}
    (ho : OpsInRange n ops) (he : InRange n e) (hr : run K S n ops = .ok g)
    (hq : g.rebuilds S e = true) (hd : g.delEdge S e = .ok g')
    (hN : g.contains e = .ok true ∧ N + 1 = g.numberEdges ∨ g.contains e = .ok false ∧ N = g.numberEdges)
    (hL1 : ∀ j < L, S.maxsz (max n N) (j + 1) ≤ N) (hL2 : N < S.maxsz (max n N) (L + 1)) {x : Nat} (hx : x < n) :
    (L ≤ g.maxR → ∃ l, g'.listNeighbour x = .ok l ∧ l.Nodup ∧
      ∀ y, y < n → (y ∈ l ↔ g'.contains (x, y) = .ok true)) ∧
    (g.maxR < L → g'.listNeighbour x = .ok []) := by
  obtain ⟨t, hnv, hn1⟩ := run_track hK hF S ho hr
  have h2 : 2 ≤ g.nv := by rw [hnv]; exact inRange_two he hn1
  rw [← hnv] at he
  obtain ⟨a1, a2, _⟩ := t.inv.delEdge_rebuild hK hF S he h2 hq hd
  obtain ⟨b1, b2, u, b3⟩ := t.inv.delEdge_level hK hF S hP he h2 hq hd
  have hNe : (if e ∈ g.edgesOf then decr g.nTotal else g.nTotal) = N := by
    rw [t.inv.contains_eq hK he] at hN
    have hne : g.numberEdges = g.nTotal := rfl
    rw [hne] at hN
    rcases hN with ⟨h3, h4⟩ | ⟨h3, h4⟩
    · have : e ∈ g.edgesOf := by simpa using h3
      rw [if_pos this]; unfold decr; rw [if_neg (by omega)]; omega
    · have : e ∉ g.edgesOf := by simpa using h3
      rw [if_neg this, h4]
  rw [hNe, hnv] at b3
  obtain ⟨s1, s2⟩ := rebuildLevel_spec S (max n N) N
  have hLe : rebuildLevel S (max n N) N ≤ L := by
    by_contra hlt
    have := s1 L (by omega)
    omega
  have hlev : rebuildLevel S (max n N) N = RS ∨ rebuildLevel S (max n N) N = L := by
    by_cases hlt : rebuildLevel S (max n N) N < RS
    · right
      have h5 := s2 hlt
      by_contra hne
      have := hL1 _ (show rebuildLevel S (max n N) N < L by omega)
      omega
    · left; have := rebuildLevel_le S (max n N) N; omega
  have hmax := a1.maxR_lt
  obtain ⟨l, l1, l2, l3⟩ := a1.listNeighbour_some hK (x := x) (by rw [a2, hnv]; exact hx)
  refine ⟨?_, ?_⟩
  · intro hle
    refine ⟨l, l1, l2, ?_⟩
    intro y hy
    have hab : g'.NoneAbove := by
      intro i t' hi
      rw [b3, List.getElem?_set] at hi
      split at hi
      · rw [b1]; rename_i h6; rcases hlev with h7 | h7
        · omega
        · omega
      · simp [List.getElem?_replicate] at hi
    rw [take_flat hab] at l3
    rw [l3, a1.contains_eq hK (by rw [a2, hnv]; exact ⟨hx, hy⟩)]
    simp [edgesOf]
  · intro hlt
    have hz : ∀ y, y ∉ l := by
      intro y hy
      have := (l3 y).1 hy
      rw [b2, List.nil_append] at this
      obtain ⟨t', h6, _⟩ := mem_flat.1 this
      rw [b3, b1] at h6
      obtain ⟨i, hi⟩ := List.getElem?_of_mem h6
      rw [List.getElem?_take] at hi
      split at hi
      · rw [List.getElem?_set] at hi
        split at hi
        · rename_i h8; rw [b1] at hmax; rcases hlev with h7 | h7 <;> omega
        · simp [List.getElem?_replicate] at hi
      · cases hi
    rw [l1, List.eq_nil_iff_forall_not_mem.2 hz]

/-! ## C45, exactly -/

/-- The thresholds of the code leave at least one slot in the buffer. -/
theorem realSizing_pos (m : Nat) (hm : 2 ≤ m) : 0 < realSizing.maxsz m 0 := by
  by_cases h8 : m < 8
  · rw [hyb_maxsz (by omega) (by omega) (by omega)]
    revert hm
    revert m
    decide
  · have h1 := realSizing_mono 8 m (le_refl _) (by omega)
    have h2 : realSizing.maxsz 8 0 = 1 := by rw [hyb_maxsz (by omega) (by omega) (by omega)]; rfl
    omega

/-- Exactly when `del_edge` fails: it reorganises, the buffer holds no edge, and either `(1,1)` is
stored (and is not the deleted edge), or every slot of the buffer is occupied by an erased edge and
growing it does not add any.  The failure is always undefined behaviour, never an exception. -/
theorem C45_exact_partial (hK : K.Lawful) (hF : K.ForcedPure) {S : Sizing} (hT : S.Top)
    (hP : ∀ m, 2 ≤ m → 0 < S.maxsz m 0) {n : Nat} {ops : List Op} {g : DK K} {e : Edge} {N : Nat}
    (ho : OpsInRange n ops) (he : InRange n e) (hr : run K S n ops = .ok g)
    (hN : g.contains e = .ok true ∧ N + 1 = g.numberEdges ∨ g.contains e = .ok false ∧ N = g.numberEdges) :
    let Fails := g.rebuilds S e = true ∧ g.c0.size = 0 ∧
      ((g.contains (1, 1) = .ok true ∧ e ≠ (1, 1)) ∨
        max g.c0.maxEdges (S.maxsz (max n N) 0) ≤ g.c0.nElements)
    (g.delEdge S e = .ub ↔ Fails) ∧ ((∃ g', g.delEdge S e = .ok g') ↔ ¬ Fails) := by
  intro Fails
  obtain ⟨t, hnv, hn1⟩ := run_track hK hF S ho hr
  have h2 : 2 ≤ g.nv := by rw [hnv]; exact inRange_two he hn1
  have key : (Fails → g.delEdge S e = .ub) ∧ (¬ Fails → ∃ g', g.delEdge S e = .ok g') := by
    by_cases hx : g.rebuilds S e = false ∨ g.c0.size ≠ 0
    · refine ⟨?_, fun _ => C45_partial hK hF hT ho he hr hx⟩
      rintro ⟨h3, h4, _⟩
      rcases hx with h5 | h5
      · rw [h3] at h5; cases h5
      · exact absurd h4 h5
    · have hq : g.rebuilds S e = true := by by_contra h3; exact hx (Or.inl (by simpa using h3))
      have h0 : g.c0.size = 0 := by by_contra h3; exact hx (Or.inr h3)
      have hl : g.c0.live = [] := by
        rw [t.inv.c0wf.size_eq, List.length_eq_zero_iff] at h0; exact h0
      rw [← hnv] at he
      obtain ⟨r1, r2⟩ := t.inv.delEdge_empty hK hF hT hP he h2 hl hq
      have hNe : (if e ∈ g.edgesOf then decr g.nTotal else g.nTotal) = N := by
        rw [t.inv.contains_eq hK he] at hN
        have hne : g.numberEdges = g.nTotal := rfl
        rw [hne] at hN
        rcases hN with ⟨h3, h4⟩ | ⟨h3, h4⟩
        · have : e ∈ g.edgesOf := by simpa using h3
          rw [if_pos this]; unfold decr; rw [if_neg (by omega)]; omega
        · have : e ∉ g.edgesOf := by simpa using h3
          rw [if_neg this, h4]
      rw [hNe] at r1 r2
      have hroom : g.c0.room S N ↔ ¬ max g.c0.maxEdges (S.maxsz (max n N) 0) ≤ g.c0.nElements := by
        unfold C0.room; rw [t.inv.c0nv, hnv, not_le]
      have h11 : g.contains (1, 1) = .ok true ↔ (1, 1) ∈ g.edgesOf := by
        rw [t.inv.contains_eq hK (show InRange g.nv (1, 1) from ⟨h2, h2⟩)]; simp
      refine ⟨?_, ?_⟩
      · rintro ⟨_, _, h3⟩
        rw [h11] at h3
        refine r1 (h3.imp id ?_)
        rw [hroom, not_not]; exact id
      · intro hf
        have h3 : ¬ ((g.contains (1, 1) = .ok true ∧ e ≠ (1, 1)) ∨
            max g.c0.maxEdges (S.maxsz (max n N) 0) ≤ g.c0.nElements) := fun h3 => hf ⟨hq, h0, h3⟩
        rw [h11, not_or] at h3
        refine r2 (fun h4 => ?_) (hroom.2 h3.2)
        by_contra h5
        exact h3.1 ⟨h4, h5⟩
  refine ⟨⟨fun h => ?_, key.1⟩, ⟨fun ⟨g', h⟩ hf => ?_, key.2⟩⟩
  · by_contra hf
    obtain ⟨g', h'⟩ := key.2 hf
    rw [h] at h'; cases h'
  · rw [key.1 hf] at h; cases h

/-- Buffer whose two slots hold erased edges, over a level with three edges of which one is deleted. -/
def wFull : List Op := [.add (0, 0), .add (2, 0), .add (2, 1), .add (0, 1), .del (0, 1), .add (0, 1),
  .del (0, 1), .del (0, 0), .del (2, 1)]

/-- The table decides the reorganisation test of small graphs. -/
theorem rebuilds_tab {g : DK refK2} {e : Edge} (h : g.rebuilds tabSizing e = true)
    (hN : ∀ c, (({ g with c0 := c } : DK refK2).afterErase e).2.nTotal ≤ 17) :
    g.rebuilds realSizing e = true := by
  unfold rebuilds at h ⊢
  split at h
  · rename_i c hc
    rw [← (agree_tab_real.rebuild _ _ (hN c))]; exact h
  · cases h

/-- Instances: reachable states with both kinds of failure, and one where the call returns. -/
example : ∃ g : DK refK2, run refK2 realSizing 3 wNull.dropLast = .ok g ∧ g.rebuilds realSizing (0, 1) = true ∧
    g.c0.size = 0 ∧ g.contains (1, 1) = .ok true := by
  obtain ⟨g, hg, h⟩ := real_check (n := 3) (ops := wNull.dropLast)
    (f := fun g => decide (g.rebuilds tabSizing (0, 1) = true ∧ g.c0.size = 0 ∧ g.contains (1, 1) = .ok true ∧
      (eraseScan refK2 (0, 1) g.ks).1 = true ∧ g.nTotal ≤ 17 ∧ 0 < g.nTotal))
    (by decide) (by decide)
  simp only [decide_eq_true_eq] at h
  refine ⟨g, hg, rebuilds_tab h.1 ?_, h.2.1, h.2.2.1⟩
  intro c
  simp only [afterErase, h.2.2.2.1, if_true, decr]
  rw [if_neg (by omega)]; omega

example : ∃ g : DK refK2, run refK2 realSizing 3 wFull.dropLast = .ok g ∧ g.rebuilds realSizing (2, 1) = true ∧
    g.c0.size = 0 ∧ g.contains (1, 1) = .ok false ∧ g.contains (2, 1) = .ok true ∧ g.numberEdges = 2 ∧
    max g.c0.maxEdges (realSizing.maxsz (max 3 1) 0) ≤ g.c0.nElements := by
  obtain ⟨g, hg, h⟩ := real_check (n := 3) (ops := wFull.dropLast)
    (f := fun g => decide (g.rebuilds tabSizing (2, 1) = true ∧ g.c0.size = 0 ∧ g.contains (1, 1) = .ok false ∧
      (eraseScan refK2 (2, 1) g.ks).1 = true ∧ g.numberEdges = 2 ∧ g.contains (2, 1) = .ok true ∧
      max g.c0.maxEdges (tabSizing.maxsz 3 0) ≤ g.c0.nElements))
    (by decide) (by decide)
  simp only [decide_eq_true_eq] at h
  obtain ⟨h1, h2, h3, h4, h5, h6, h7⟩ := h
  have h5' : g.nTotal = 2 := h5
  refine ⟨g, hg, rebuilds_tab h1 ?_, h2, h3, h6, h5, ?_⟩
  · intro c
    simp only [afterErase, h4, if_true, decr]
    rw [if_neg (by omega)]; omega
  · rw [tab_maxsz (by omega) (by omega) (by omega)] at h7
    exact h7

/-- Instance for `C16_neighbour_partial`: a reorganisation that stores the edges above `max_r`. -/
example : ∃ g g' : DK refK2, run refK2 realSizing 3 wAbove.dropLast = .ok g ∧
    g.delEdge realSizing (0, 1) = .ok g' ∧ g.rebuilds realSizing (0, 1) = true ∧
    g.contains (0, 1) = .ok true ∧ 4 + 1 = g.numberEdges ∧ g.maxR < 5 ∧
    (∀ j < 5, realSizing.maxsz (max 3 4) (j + 1) ≤ 4) ∧ 4 < realSizing.maxsz (max 3 4) (5 + 1) := by
  obtain ⟨g, hg, h⟩ := real_check (n := 3) (ops := wAbove.dropLast)
    (f := fun g => decide (g.rebuilds tabSizing (0, 1) = true ∧ g.maxR < 5 ∧
      (eraseScan refK2 (0, 1) g.ks).1 = true ∧ g.numberEdges = 5 ∧ g.contains (0, 1) = .ok true))
    (by decide) (by decide)
  simp only [decide_eq_true_eq] at h
  obtain ⟨h1, h2, h4, h5, h6⟩ := h
  have h5' : g.nTotal = 5 := h5
  obtain ⟨g1, hg1, _⟩ := real_check (n := 3) (ops := wAbove) (f := fun _ => true) (by decide) (by decide)
  have hsplit : wAbove = wAbove.dropLast ++ [.del (0, 1)] := by decide
  rw [hsplit] at hg1
  obtain ⟨g2, hg2, hd⟩ := run_snoc_ok realSizing hg1
  rw [hg] at hg2; cases hg2
  refine ⟨g, g1, hg, hd, rebuilds_tab h1 ?_, h6, h5.symm, h2, ?_, ?_⟩
  · intro c
    simp only [afterErase, h4, if_true, decr]
    rw [if_neg (by omega)]; omega
  · intro j hj
    rw [← tab_maxsz (by omega) (by omega) (by simp; omega)]
    revert j; decide
  · rw [← tab_maxsz (by omega) (by omega) (by simp)]; decide

end DK2
