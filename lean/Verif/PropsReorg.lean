import Verif.Reorg
import Verif.PropsDelay
/-!
# C111: a reorganisation lasts

Reorganising is to make a graph forget its erased edges, so that the next reorganisation is not due for a while.
-/

namespace DK2
open DK

/-- `del_edge e` on `d` enters the rebuild branch (DKtree_delay.hpp:224). -/
def DKD.rebuilds {K : K2Impl} (S : Sizing) (d : DKD K) (e : Edge) : Bool :=
  match d.g.c0.erase e with
  | .ok (false, c) => S.rebuild (DKD.afterErase { d.g with c0 := c } e).1 (DKD.afterErase { d.g with c0 := c } e).2.nTotal
  | _ => false

/-- Two marked edges are too few for a reorganisation, unless one edge is left. -/
theorem rebuild_few {k t : Nat} (hk : k ≤ 2) (h : realSizing.rebuild k t = true) : t = 1 := by
  unfold realSizing at h
  simp only at h
  split at h
  · cases h
  split at h
  · assumption
  split at h
  · cases h
  exfalso
  have h3' : (3 : ℝ) ≤ t := by exact_mod_cast (by omega : 3 ≤ t)
  have hk' : (k : ℝ) ≤ 2 := by exact_mod_cast hk
  have hlt : (t : ℝ) / Real.logb 2 (Real.logb 2 t) < k := by simpa using h
  have hl1 : 1 < Real.logb 2 t := by
    rw [Real.lt_logb_iff_rpow_lt (by norm_num) (by linarith), Real.rpow_one]; linarith
  have hL : 0 < Real.logb 2 (Real.logb 2 t) := Real.logb_pos (by norm_num) hl1
  rw [div_lt_iff₀ hL] at hlt
  have a1 := logb2_le (y := Real.logb 2 t) (by linarith)
  have a2 := logb2_le (y := (t : ℝ)) (by linarith)
  have := mul_le_mul_of_nonneg_right hk' hL.le
  nlinarith

/-- C111: a `del_edge` right after one that reorganised the graph does not reorganise it again, if three edges are left. -/
theorem C111_lasts {K : K2Impl} (hK : K.Lawful) (hF : K.ForcedPure) (hM : K.MarksOne) {n : Nat} {ops : List Op}
    {g g' g'' : DK K} {e e' : Edge} (ho : OpsInRange n (ops ++ [.del e, .del e'])) (hr : run K realSizing n ops = .ok g)
    (hq : g.rebuilds realSizing e = true) (hd : g.delEdge realSizing e = .ok g')
    (hd' : g'.delEdge realSizing e' = .ok g'') (h3 : 3 ≤ g''.numberEdges) : g'.rebuilds realSizing e' = false := by
  rw [← Bool.not_eq_true]
  intro hq'
  have ho1 : OpsInRange n ops := fun o h => ho o (List.mem_append_left _ h)
  have he : InRange n e := ho (.del e) (by simp)
  have he' : InRange n e' := ho (.del e') (by simp)
  obtain ⟨t, hn, h1⟩ := run_track hK hF realSizing ho1 hr
  subst hn
  have h2 : 2 ≤ g.nv := by have := he.1; omega
  obtain ⟨t', hn'⟩ := t.step hK hF realSizing (o := .del e) he h2 hd
  obtain ⟨_, _, _, _, _, _, b5⟩ := (delEdge_reorg hK hF hM t.inv t.cnt h2 he hd).2 hq
  obtain ⟨k, m, c1, c2, c3, _, _⟩ :=
    (delEdge_reorg hK hF hM t'.inv t'.cnt (by rw [hn']; exact h2) (by rw [hn']; exact he') hd').2 hq'
  have := rebuild_few (by omega) c2
  have h3' : 3 ≤ g''.nTotal := h3
  omega

/-- C111 for `DKtree_delay`. -/
def C111_delay_Full : Prop :=
  ∀ (nd : Bool) (K : K2Impl), K.Lawful → K.ForcedPure → K.MarksOne → ∀ (n : Nat) (ops : List Op) (d d' d'' : DKD K)
    (e e' : Edge), OpsInRange n (ops ++ [.del e, .del e']) → DKD.run nd K realSizing n ops = .ok d →
    d.rebuilds realSizing e = true → d.delEdge realSizing e = .ok d' →
    d'.delEdge realSizing e' = .ok d'' → 3 ≤ d''.numberEdges → d'.rebuilds realSizing e' = false

/-- Eleven edges of five vertices, four of which are deleted again. -/
def wAgain : List Op := (inserts [(0, 0), (0, 1), (0, 2), (0, 3), (0, 4), (1, 0), (1, 1), (1, 2), (1, 3), (1, 4), (2, 0)]) ++
  [.del (0, 0), .del (0, 1), .del (0, 2), .del (0, 3)]

/-- What happens next: three deletions. -/
def again (S : Sizing) (d : DKD refK2) : Bool :=
  match d.delEdge S (0, 4) with
  | .ok d1 =>
    d.rebuilds S (0, 4) && d1.rebuilds S (1, 0) &&
    match d1.delEdge S (1, 0) with
    | .ok d2 => d2.rebuilds S (1, 1) && decide (d2.numberEdges = 5)
    | _ => false
  | _ => false

/-- The same for a `DKtree`. -/
def once (S : Sizing) (g : DK refK2) : Bool :=
  match g.delEdge S (0, 4) with
  | .ok g1 =>
    g.rebuilds S (0, 4) &&
    match g1.delEdge S (1, 0) with
    | .ok g2 => decide (g2.numberEdges = 5)
    | _ => false
  | _ => false

/-- Instance: a `DKtree` that reorganises once. -/
example : ∃ g g' g'' : DK refK2, run refK2 realSizing 5 wAgain = .ok g ∧ g.rebuilds realSizing (0, 4) = true ∧
    g.delEdge realSizing (0, 4) = .ok g' ∧ g'.delEdge realSizing (1, 0) = .ok g'' ∧ 3 ≤ g''.numberEdges ∧
    g'.rebuilds realSizing (1, 0) = false := by
  obtain ⟨g, hg, h1⟩ : ∃ g, run refK2 realSizing 5 wAgain = .ok g ∧ once realSizing g = true := by
    rw [realSizing_eq_hyb]; exact check_iff.1 (by decide +kernel)
  unfold once at h1
  cases hd1 : g.delEdge realSizing (0, 4) with
  | ok g1 =>
    rw [hd1] at h1
    simp only [Bool.and_eq_true] at h1
    obtain ⟨a1, h1⟩ := h1
    cases hd2 : g1.delEdge realSizing (1, 0) with
    | ok g2 =>
      rw [hd2] at h1
      have h5 : g2.numberEdges = 5 := of_decide_eq_true h1
      exact ⟨g, g1, g2, hg, a1, hd1, hd2, by omega, C111_lasts refK2_lawful refK2_forcedPure refK2_marksOne (n := 5)
        (ops := wAgain) (by decide) hg a1 hd1 hd2 (by omega)⟩
    | _ => rw [hd2] at h1; cases h1
  | _ => rw [hd1] at h1; cases h1

/-- The reorganisation leaves the tree that holds the marked edges as it is, so every later deletion of an edge from that
tree reorganises again. -/
theorem C111_delay_refuted : ¬ C111_delay_Full := by
  intro h
  obtain ⟨d, hd, h1⟩ := DKD.real_check (nd := false) (n := 5) (ops := wAgain) (f := again hybSizing) (by decide +kernel)
  rw [← realSizing_eq_hyb] at h1
  unfold again at h1
  cases hd1 : d.delEdge realSizing (0, 4) with
  | ok d1 =>
    rw [hd1] at h1
    simp only [Bool.and_eq_true] at h1
    obtain ⟨⟨a1, a2⟩, h1⟩ := h1
    cases hd2 : d1.delEdge realSizing (1, 0) with
    | ok d2 =>
      rw [hd2] at h1
      simp only [Bool.and_eq_true, decide_eq_true_eq] at h1
      have := h false refK2 refK2_lawful refK2_forcedPure refK2_marksOne 5 wAgain d d1 d2 (0, 4) (1, 0) (by decide) hd a1 hd1
        hd2 (by omega)
      rw [a2] at this
      cases this
    | _ => rw [hd2] at h1; cases h1
  | _ => rw [hd1] at h1; cases h1

end DK2
