import Verif.VarAlgo
import Verif.PropsIter
import Mathlib.Tactic.NormNum
/-!
# C94: what `pageRank` computes

`pageRank` (Algorithm.hpp:205-269) with the `double`s read as elements of an ordered field.
-/

namespace DK2
open DK GraphI

variable {K : K2Impl}

/-- The default `alpha` of `pageRank` (Algorithm.hpp:206): `0.85f`, as a fraction. -/
def alpha0 : ℚ := 7130317 / 2 ^ 23

/-- The default `convergence` of `pageRank` (Algorithm.hpp:206): `1.0e-6f`, as a fraction. -/
def conv0 : ℚ := 8796093 / 2 ^ 43

/-- An insertion-only `DKtree` shows its edges. -/
theorem built (hK : K.Lawful) (hF : K.ForcedPure) {n : Nat} (h2 : 2 ≤ n) (hn : n ≤ 9999999) {es : List Edge}
    (hes : ∀ e ∈ es, InRange n e) :
    ∃ g : DK K, DK.run K realSizing n (es.map Op.add) = .ok g ∧ g.iface.nodes = n ∧
      g.iface.Faithful (fun e => e ∈ es) := by
  obtain ⟨g, h1, hf, h3, h4⟩ := DK.run_inserts hK hF realSizing_top h2 hes
  have ho : OpsInRange n (inserts es) := by
    intro o hoo
    obtain ⟨e, he, rfl⟩ := List.mem_map.1 hoo
    exact hes e he
  have hfa := iface_faithful hK hF realSizing (by omega) hn ho (inserts_quiet _ _ _) h1 hf.c0m
  have hE : (specMem (inserts es)) = (fun e => e ∈ es) := by
    funext e
    apply propext
    rw [specMem_iff_specRun, specRun_inserts]
  rw [hE] at hfa
  exact ⟨g, h1, h3, hfa⟩

/-- C94, the full statement: on every graph with an edge, the ranks that `pageRank()` returns by default are within
`1/2` (in the sum of absolute differences, where the total is 1) of a solution of the PageRank equation. -/
def C94_Full (K : K2Impl) : Prop :=
  ∀ (n : Nat) (es : List Edge) (g : DK K), 2 ≤ n → n ≤ 9999999 → es ≠ [] → (∀ e ∈ es, InRange n e) →
    DK.run K realSizing n (es.map Op.add) = .ok g →
    ∃ p r, g.iface.pageRank conv0 100 alpha0 = .ok p ∧ PR.IsPageRank n (PR.walkE n (fun e => e ∈ es)) alpha0 r ∧
      PR.dist1 (PR.vec n p) r ≤ 1 / 2

section
variable {F : Type} [Field F] [LinearOrder F] [IsStrictOrderedRing F]

/-- C94 on every insertion history with an edge, for all `0 ≤ alpha < 1`, thresholds and numbers of sweeps: the
PageRank equation of the inserted edges has exactly one solution, a probability distribution, and the returned ranks
are within `alpha^k (n/T + 1)` of it, `T` being the number of vertices with a successor, or, when the convergence
test stopped the loop, even in the middle of a sweep, within `(1+alpha)/(1-alpha) * n * conv`; once
`alpha^j (n/T + 1)` is below `n * conv / (1 + alpha)` for some `j < k`, the latter. -/
theorem C94_rank_partial (hK : K.Lawful) (hF : K.ForcedPure) {n : Nat} (h2 : 2 ≤ n) (hn : n ≤ 9999999) {es : List Edge}
    (hes : ∀ e ∈ es, InRange n e) (hne : es ≠ []) {g : DK K} (hr : DK.run K realSizing n (es.map Op.add) = .ok g)
    {conv alpha : F} (ha : 0 ≤ alpha) (ha1 : alpha < 1) (k : Nat) :
    ∃ p, g.iface.pageRank conv k alpha = .ok p ∧ p.length = n ∧ (∀ x ∈ p, 0 ≤ x) ∧
      ∃ r : Fin n → F, PR.IsPageRank n (PR.walkE n (fun e => e ∈ es)) alpha r ∧
        (∀ s, PR.IsPageRank n (PR.walkE n (fun e => e ∈ es)) alpha s → s = r) ∧ (∀ v, 0 ≤ r v) ∧ ∑ v, r v = 1 ∧
        (PR.dist1 (PR.vec n p) r ≤ alpha ^ k * ((n : F) * (1 / (PR.sources n (fun e => e ∈ es) : F)) + 1) ∨
          (1 - alpha) * PR.dist1 (PR.vec n p) r < (1 + alpha) * (n * conv)) ∧
        (∀ j, j < k → (1 + alpha) * (alpha ^ j * ((n : F) * (1 / (PR.sources n (fun e => e ∈ es) : F)) + 1)) < n * conv →
          (1 - alpha) * PR.dist1 (PR.vec n p) r < (1 + alpha) * (n * conv)) := by
  obtain ⟨g', h1, h3, hf⟩ := built hK hF h2 hn hes
  rw [hr] at h1; cases h1
  obtain ⟨e, he⟩ := List.exists_mem_of_ne_nil es hne
  obtain ⟨p, p1, p2, p3, p4⟩ := PR.faithful_near hf ⟨e, he⟩ (conv := conv) ha ha1 k
  rw [h3] at p2 p3 p4
  refine ⟨p, p1, p2, fun x hx => ?_, p4⟩
  obtain ⟨i, hi, rfl⟩ := List.mem_iff_getElem.1 hx
  have := p3 ⟨i, by omega⟩
  unfold PR.vec at this
  rwa [List.getElem?_eq_getElem hi] at this

/-- C94 after any history, deletions included: the same for the links that `list_neighbour` returns, repeated ones
counted as often as they are listed. -/
theorem C94_any_partial (hK : K.Lawful) (S : Sizing) {n : Nat} {ops : List Op} {g : DK K} (ho : OpsInRange n ops)
    (hr : run K S n ops = .ok g) {L : Nat → List Nat} (hL : ∀ x, x < n → g.listNeighbour x = .ok (L x))
    (hne : ∃ x, x < n ∧ L x ≠ []) {conv alpha : F} (ha : 0 ≤ alpha) (ha1 : alpha < 1) (k : Nat) :
    ∃ p, g.iface.pageRank conv k alpha = .ok p ∧ p.length = n ∧
      PR.Approx n (PR.walk n L) alpha conv k ((n : F) *
        (1 / (((List.range n).filter (fun x => !(L x).isEmpty)).length : F)) + 1) p := by
  obtain ⟨_, hnv, _⟩ := run_weak hK S ho hr
  have hnodes : g.iface.nodes = n := hnv
  obtain ⟨p, p1, p2, _, p4⟩ := PR.pageRank_near (G := g.iface) (L := L) (fun x hx => hL x (by rw [← hnodes]; exact hx))
    (fun x hx y hy => by
      rw [hnodes] at hx ⊢
      exact listNeighbour_lt hK S ho hr hx (hL x hx) y hy)
    (by rw [hnodes]; exact hne) (conv := conv) ha ha1 k
  rw [hnodes] at p2 p4
  exact ⟨p, p1, p2, p4⟩

/-- C94, the failure in general: when more than `2/conv` vertices have a successor, `pageRank` stops after the first
vertex of the first sweep: every vertex other than 0 and the successors of 0 gets rank 0. -/
theorem C94_early (hK : K.Lawful) (hF : K.ForcedPure) {n : Nat} (h2 : 2 ≤ n) (hn : n ≤ 9999999) {es : List Edge}
    (hes : ∀ e ∈ es, InRange n e) {g : DK K} (hr : DK.run K realSizing n (es.map Op.add) = .ok g)
    {conv alpha : F} (ha : 0 ≤ alpha) (ha1 : alpha ≤ 1) (hbig : 2 < (PR.sources n (fun e => e ∈ es) : F) * conv)
    (k : Nat) (hk : 0 < k) :
    ∃ p, g.iface.pageRank conv k alpha = .ok p ∧ p.length = n ∧
      ∀ v, v < n → v ≠ 0 → (0, v) ∉ es → p[v]? = some 0 := by
  obtain ⟨g', h1, h3, hf⟩ := built hK hF h2 hn hes
  rw [hr] at h1; cases h1
  have := PR.faithful_early hf (conv := conv) ha ha1 (by rw [h3]; exact hbig) k hk
  rwa [h3] at this

end

/-- C94 with the default arguments: the ranks are within `n/80000` of the PageRank; so `C94_Full` holds up to 40000
vertices. -/
theorem C94_default_partial (hK : K.Lawful) (hF : K.ForcedPure) {n : Nat} (h2 : 2 ≤ n) (hn : n ≤ 9999999) {es : List Edge}
    (hes : ∀ e ∈ es, InRange n e) (hne : es ≠ []) {g : DK K} (hr : DK.run K realSizing n (es.map Op.add) = .ok g) :
    ∃ p r, g.iface.pageRank conv0 100 alpha0 = .ok p ∧ PR.IsPageRank n (PR.walkE n (fun e => e ∈ es)) alpha0 r ∧
      PR.dist1 (PR.vec n p) r ≤ n / 80000 ∧ (n ≤ 40000 → PR.dist1 (PR.vec n p) r ≤ 1 / 2) := by
  have ha : (0 : ℚ) ≤ alpha0 := by unfold alpha0; norm_num
  have ha1 : alpha0 < 1 := by unfold alpha0; norm_num
  obtain ⟨p, p1, _, _, r, r1, _, _, _, r2, _⟩ := C94_rank_partial hK hF h2 hn hes hne hr (conv := conv0) ha ha1 100
  have hn0 : (2 : ℚ) ≤ n := by exact_mod_cast h2
  have hmain : PR.dist1 (PR.vec n p) r ≤ n / 80000 := by
    rcases r2 with r2 | r2
    · have hT : (1 : ℚ) / (PR.sources n (fun e => e ∈ es) : ℚ) ≤ 1 := by
        rcases Nat.eq_zero_or_pos (PR.sources n (fun e => e ∈ es)) with h | h
        · rw [h]; norm_num
        · have : (1 : ℚ) ≤ (PR.sources n (fun e => e ∈ es) : ℚ) := by exact_mod_cast h
          rw [div_le_one (by linarith)]; exact this
      have h4 : (n : ℚ) * (1 / (PR.sources n (fun e => e ∈ es) : ℚ)) + 1 ≤ 2 * n := by
        have := mul_le_mul_of_nonneg_left hT (by linarith : (0 : ℚ) ≤ n)
        linarith
      have h5 : alpha0 ^ 100 ≤ 1 / 160000 := by unfold alpha0; norm_num
      have h6 : alpha0 ^ 100 * ((n : ℚ) * (1 / (PR.sources n (fun e => e ∈ es) : ℚ)) + 1) ≤ 1 / 160000 * (2 * n) :=
        mul_le_mul h5 h4 (by positivity) (by norm_num)
      linarith
    · have h7 : (1 + alpha0) * (n * conv0) ≤ (1 - alpha0) * (n / 80000) := by
        unfold alpha0 conv0; linarith
      have h8 : (0 : ℚ) < 1 - alpha0 := by linarith
      exact (lt_of_mul_lt_mul_left (lt_of_lt_of_le r2 h7) h8.le).le
  refine ⟨p, r, p1, r1, hmain, fun h => le_trans hmain ?_⟩
  have : (n : ℚ) ≤ 40000 := by exact_mod_cast h
  linarith

/-- The self-loops of the first `n` vertices. -/
def loops (n : Nat) : List Edge := (List.range n).map (fun i => (i, i))

theorem mem_loops {n : Nat} {e : Edge} : e ∈ loops n ↔ e.1 = e.2 ∧ e.2 < n := by
  unfold loops
  constructor
  · intro h
    obtain ⟨i, hi, rfl⟩ := List.mem_map.1 h
    exact ⟨rfl, List.mem_range.1 hi⟩
  · rintro ⟨h1, h2⟩
    exact List.mem_map.2 ⟨e.2, List.mem_range.2 h2, Prod.ext h1.symm rfl⟩

theorem sources_loops (n : Nat) : PR.sources n (fun e => e ∈ loops n) = n := by
  classical
  unfold PR.sources
  have : (List.range n).filter (fun x => decide (∃ y, (x, y) ∈ loops n)) = List.range n := by
    rw [List.filter_eq_self]
    intro x hx
    exact decide_eq_true ⟨x, mem_loops.2 ⟨rfl, List.mem_range.1 hx⟩⟩
  rw [this]; simp

/-- On self-loops every vertex has PageRank `1/n`. -/
theorem rank_loops {n : Nat} {F : Type} [Field F] [LinearOrder F] [IsStrictOrderedRing F] {alpha : F} (ha1 : alpha < 1)
    {r : Fin n → F} (hr : PR.IsPageRank n (PR.walkE n (fun e => e ∈ loops n)) alpha r) (v : Fin n) : r v = 1 / n := by
  have hw : ∀ u : Fin n, PR.walkE (F := F) n (fun e => e ∈ loops n) u v = if u = v then 1 else 0 := by
    intro u
    rw [← PR.walk_eq (L := fun u => if u < n then [u] else []) (by split <;> simp) (fun w => by
      rw [mem_loops]
      by_cases hu : (u : Nat) < n
      · simp only [hu, if_true, List.mem_singleton]
        exact ⟨fun h => ⟨h.symm, h ▸ hu⟩, fun h => h.1.symm⟩
      · exact absurd u.2 hu) (fun w hw => (mem_loops.1 hw).2)]
    unfold PR.walk
    simp only [u.2, if_true]
    by_cases huv : u = v
    · subst huv; simp
    · have : ¬ (u : Nat) = v := fun h => huv (Fin.ext h)
      simp [huv, this]
  have h := hr v
  rw [Finset.sum_congr rfl (fun u _ => by rw [hw u])] at h
  simp only [mul_ite, mul_one, mul_zero, Finset.sum_ite_eq', Finset.mem_univ, if_true] at h
  have h1 : (1 - alpha) ≠ 0 := by linarith
  apply mul_left_cancel₀ h1
  linear_combination h

/-- C94 is false in general: on 2000001 vertices with a self-loop each, `pageRank()` gives rank 0 to all of them but
vertex 0, although all have PageRank `1/n`. -/
theorem C94_refuted (hK : K.Lawful) (hF : K.ForcedPure) : ¬ C94_Full K := by
  intro hfull
  have hes : ∀ e ∈ loops 2000001, InRange 2000001 e := by
    intro e he
    obtain ⟨h1, h2⟩ := mem_loops.1 he
    exact ⟨by rw [h1]; exact h2, h2⟩
  have hne : loops 2000001 ≠ [] := by
    have : ((0, 0) : Edge) ∈ loops 2000001 := mem_loops.2 ⟨rfl, by norm_num⟩
    exact List.ne_nil_of_mem this
  obtain ⟨g, h1, _, _⟩ := built hK hF (n := 2000001) (by norm_num) (by norm_num) hes
  obtain ⟨p, r, p1, hr, hd⟩ := hfull _ _ g (by norm_num) (by norm_num) hne hes h1
  have ha1 : alpha0 < 1 := by unfold alpha0; norm_num
  obtain ⟨p', q1, q2, q3⟩ := C94_early hK hF (by norm_num) (by norm_num) hes h1 (conv := conv0) (alpha := alpha0)
    (by unfold alpha0; norm_num) ha1.le (by rw [sources_loops]; unfold conv0; norm_num) 100 (by norm_num)
  rw [p1] at q1; cases q1
  have hv : ∀ v : Fin 2000001, v ≠ 0 → |PR.vec 2000001 p v - r v| = 1 / 2000001 := by
    intro v h0
    have h3 := q3 v v.2 (fun h => h0 (Fin.ext h)) (fun h => h0 (Fin.ext (mem_loops.1 h).1.symm))
    unfold PR.vec
    rw [h3, rank_loops ha1 hr v]
    simp
  have hsum : ∑ v ∈ Finset.univ.erase (0 : Fin 2000001), |PR.vec 2000001 p v - r v| ≤ PR.dist1 (PR.vec 2000001 p) r :=
    Finset.sum_le_sum_of_subset_of_nonneg (Finset.erase_subset _ _) (fun _ _ _ => abs_nonneg _)
  rw [Finset.sum_congr rfl (fun v hvv => hv v (Finset.ne_of_mem_erase hvv)), Finset.sum_const,
    Finset.card_erase_of_mem (Finset.mem_univ _), Finset.card_univ, Fintype.card_fin, nsmul_eq_mul] at hsum
  norm_num at hsum
  linarith

/-- Instance of the bounds: vertices 0 and 1 point at each other and at 2, which has no successor. With `alpha = 1/2` the
PageRank is `(4/13, 4/13, 5/13)`; the code starts from mass 3/2 and returns this after one and after three sweeps. -/
example : PR.IsPageRank (F := ℚ) 3 (PR.walk 3 (fun u => if u = 0 then [1, 2] else if u = 1 then [0, 2] else [])) (1 / 2)
      (fun v => if v = 2 then 5 / 13 else 4 / 13) ∧
    ∃ g : DK refK2, run refK2 realSizing 3 [.add (0, 1), .add (1, 0), .add (0, 2), .add (1, 2)] = .ok g ∧
      decide (g.iface.pageRank (F := ℚ) 0 1 (1 / 2) = .ok [3 / 8, 3 / 8, 1 / 2] ∧
        g.iface.pageRank (F := ℚ) 0 3 (1 / 2) = .ok [125 / 384, 125 / 384, 79 / 192]) = true := by
  refine ⟨?_, real_check (by decide) (by decide +kernel)⟩
  unfold PR.IsPageRank
  decide +kernel

/-- Instance of the early return: three self-loops and `convergence = 1`: the code ranks vertex 0 and no other. -/
example : ∃ g : DK refK2, run refK2 realSizing 3 ((loops 3).map Op.add) = .ok g ∧
    decide (g.iface.pageRank (F := ℚ) 1 100 (1 / 2) = .ok [1 / 3, 0, 0]) = true ∧
    (2 : ℚ) < (PR.sources 3 (fun e => e ∈ loops 3) : ℚ) * 1 := by
  obtain ⟨g, h1, h2⟩ := real_check (n := 3) (ops := (loops 3).map Op.add)
    (f := fun g => decide (g.iface.pageRank (F := ℚ) 1 100 (1 / 2) = .ok [1 / 3, 0, 0])) (by decide) (by decide +kernel)
  exact ⟨g, h1, h2, by rw [sources_loops]; norm_num⟩

end DK2
