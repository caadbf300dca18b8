import Verif.Cluster
import Verif.IEEE
/-!
# C96 in `float`

`clustering_coefficient` (Algorithm.hpp:196-199) computes in single precision.
-/

namespace DK2
open DK GraphI

variable {K : K2Impl}

/-- `clustering_coefficient()` (Algorithm.hpp:196-199) in single precision: the number of edges and the number of triangles
are converted to `float`; `none` for a division by zero. No number in it leaves the range of normalised `float`s as long as
the graph has at most `10^14` edges. -/
def GraphI.clusteringF (G : GraphI) : Res (Option ℚ) := do
  let c ← G.triangles
  let te := IEEE.rnd 24 (G.nEdges : ℚ)
  let d := IEEE.rnd 24 (te * IEEE.rnd 24 (te - 1))
  if d = 0 then .ok none else .ok (some (IEEE.rnd 24 (IEEE.rnd 24 (c : ℚ) / d)))

namespace IEEE

theorem rnd_two {p : Nat} {x y a : ℚ} (hx : 0 ≤ x) (ha : 0 ≤ a) (ha1 : a ≤ 1) (h : |y - x| ≤ a * x) :
    0 ≤ y ∧ |rnd p y - x| ≤ (a + 1 / 2 ^ p * (1 + a)) * x := by
  have h1 := abs_le.1 h
  have hy0 : 0 ≤ y := by nlinarith
  have h2 := abs_le.1 (rnd_near p y)
  rw [abs_of_nonneg hy0] at h2
  have hp : (0 : ℚ) ≤ 1 / 2 ^ p := by positivity
  have h3 : 1 / 2 ^ p * y ≤ 1 / 2 ^ p * ((1 + a) * x) := mul_le_mul_of_nonneg_left (by linarith) hp
  refine ⟨hy0, abs_le.2 ⟨?_, ?_⟩⟩ <;> linarith

end IEEE

/-- The computed quotient has a relative error of at most `2^-21`. -/
theorem clusteringF_near (m c : Nat) (hm : 2 ≤ m) :
    IEEE.rnd 24 (IEEE.rnd 24 (m : ℚ) * IEEE.rnd 24 (IEEE.rnd 24 (m : ℚ) - 1)) ≠ 0 ∧
    |IEEE.rnd 24 (IEEE.rnd 24 (c : ℚ) / IEEE.rnd 24 (IEEE.rnd 24 (m : ℚ) * IEEE.rnd 24 (IEEE.rnd 24 (m : ℚ) - 1))) -
      (c : ℚ) / ((m : ℚ) * ((m : ℚ) - 1))| ≤ 1 / 2 ^ 21 * ((c : ℚ) / ((m : ℚ) * ((m : ℚ) - 1))) := by
  have hm2 : (2 : ℚ) ≤ (m : ℚ) := by exact_mod_cast hm
  obtain ⟨t, ht⟩ : ∃ t, t = IEEE.rnd 24 (m : ℚ) := ⟨_, rfl⟩
  have h1 := IEEE.rnd_near 24 (m : ℚ)
  rw [← ht, abs_of_nonneg (by linarith : (0 : ℚ) ≤ (m : ℚ))] at h1
  have h1' := abs_le.1 h1
  have h2 : |(t - 1) - ((m : ℚ) - 1)| ≤ 2 / 2 ^ 24 * ((m : ℚ) - 1) := by
    refine abs_le.2 ⟨?_, ?_⟩ <;> linarith
  obtain ⟨_, h3⟩ := IEEE.rnd_two (p := 24) (by linarith) (by norm_num) (by norm_num) h2
  rw [← ht]
  obtain ⟨s, hs⟩ : ∃ s, s = IEEE.rnd 24 (t - 1) := ⟨_, rfl⟩
  rw [← hs] at h3 ⊢
  have h3' := abs_le.1 h3
  have hM : 0 < (m : ℚ) * ((m : ℚ) - 1) := mul_pos (by linarith) (by linarith)
  have ht0 : 0 ≤ t := by linarith
  have hs0 : 0 ≤ s := by linarith
  have h4 : |t * s - (m : ℚ) * ((m : ℚ) - 1)| ≤ (4 / 2 ^ 24 + 1 / 2 ^ 40) * ((m : ℚ) * ((m : ℚ) - 1)) := by
    have hup : t * s ≤ ((1 + 1 / 2 ^ 24) * (m : ℚ)) * ((1 + (2 / 2 ^ 24 + 1 / 2 ^ 24 * (1 + 2 / 2 ^ 24))) * ((m : ℚ) - 1)) :=
      mul_le_mul (by linarith) (by linarith) hs0 (by positivity)
    have hlo : ((1 - 1 / 2 ^ 24) * (m : ℚ)) * ((1 - (2 / 2 ^ 24 + 1 / 2 ^ 24 * (1 + 2 / 2 ^ 24))) * ((m : ℚ) - 1)) ≤ t * s :=
      mul_le_mul (by linarith) (by linarith) (mul_nonneg (by norm_num) (by linarith)) ht0
    have e1 : ((1 + 1 / 2 ^ 24) * (m : ℚ)) * ((1 + (2 / 2 ^ 24 + 1 / 2 ^ 24 * (1 + 2 / 2 ^ 24))) * ((m : ℚ) - 1)) =
      ((1 + 1 / 2 ^ 24) * (1 + (2 / 2 ^ 24 + 1 / 2 ^ 24 * (1 + 2 / 2 ^ 24)))) * ((m : ℚ) * ((m : ℚ) - 1)) := by ring
    have e2 : ((1 - 1 / 2 ^ 24) * (m : ℚ)) * ((1 - (2 / 2 ^ 24 + 1 / 2 ^ 24 * (1 + 2 / 2 ^ 24))) * ((m : ℚ) - 1)) =
      ((1 - 1 / 2 ^ 24) * (1 - (2 / 2 ^ 24 + 1 / 2 ^ 24 * (1 + 2 / 2 ^ 24)))) * ((m : ℚ) * ((m : ℚ) - 1)) := by ring
    rw [e1] at hup
    rw [e2] at hlo
    have k1 : ((1 + 1 / 2 ^ 24) * (1 + (2 / 2 ^ 24 + 1 / 2 ^ 24 * (1 + 2 / 2 ^ 24))) : ℚ) ≤ 1 + (4 / 2 ^ 24 + 1 / 2 ^ 40) := by
      norm_num
    have k2 : (1 - (4 / 2 ^ 24 + 1 / 2 ^ 40) : ℚ) ≤ (1 - 1 / 2 ^ 24) * (1 - (2 / 2 ^ 24 + 1 / 2 ^ 24 * (1 + 2 / 2 ^ 24))) := by
      norm_num
    have k3 := mul_le_mul_of_nonneg_right k1 hM.le
    have k4 := mul_le_mul_of_nonneg_right k2 hM.le
    refine abs_le.2 ⟨?_, ?_⟩ <;> linarith
  obtain ⟨_, h5⟩ := IEEE.rnd_two (p := 24) hM.le (by norm_num) (by norm_num) h4
  obtain ⟨d, hd⟩ : ∃ d, d = IEEE.rnd 24 (t * s) := ⟨_, rfl⟩
  rw [← hd] at h5 ⊢
  have h5' := abs_le.1 h5
  generalize (m : ℚ) * ((m : ℚ) - 1) = M at hM h5'
  have hdlo : (1 - 6 / 2 ^ 24 + 1 / 2 ^ 25) * M ≤ d := by
    have : (1 - 6 / 2 ^ 24 + 1 / 2 ^ 25 : ℚ) ≤ 1 - (4 / 2 ^ 24 + 1 / 2 ^ 40 + 1 / 2 ^ 24 * (1 + (4 / 2 ^ 24 + 1 / 2 ^ 40))) := by
      norm_num
    have := mul_le_mul_of_nonneg_right this hM.le
    linarith
  have hdhi : d ≤ (1 + 6 / 2 ^ 24 - 1 / 2 ^ 25) * M := by
    have : (1 + (4 / 2 ^ 24 + 1 / 2 ^ 40 + 1 / 2 ^ 24 * (1 + (4 / 2 ^ 24 + 1 / 2 ^ 40))) : ℚ) ≤ 1 + 6 / 2 ^ 24 - 1 / 2 ^ 25 := by
      norm_num
    have := mul_le_mul_of_nonneg_right this hM.le
    linarith
  have hd0 : 0 < d := lt_of_lt_of_le (by positivity) hdlo
  refine ⟨hd0.ne', ?_⟩
  have hc0 : (0 : ℚ) ≤ (c : ℚ) := Nat.cast_nonneg c
  have h6 := IEEE.rnd_near 24 (c : ℚ)
  rw [abs_of_nonneg hc0] at h6
  obtain ⟨b, hb⟩ : ∃ b, b = IEEE.rnd 24 (c : ℚ) := ⟨_, rfl⟩
  rw [← hb] at h6 ⊢
  have h6' := abs_le.1 h6
  have hq0 : 0 ≤ (c : ℚ) / M := by positivity
  have hcM : (c : ℚ) / M * M = c := div_mul_cancel₀ _ hM.ne'
  have h7 : |b / d - (c : ℚ) / M| ≤ (6 / 2 ^ 24 + 2 / 2 ^ 25 - 1 / 2 ^ 30) * ((c : ℚ) / M) := by
    have hlo : (1 - (6 / 2 ^ 24 + 2 / 2 ^ 25 - 1 / 2 ^ 30)) * ((c : ℚ) / M) ≤ b / d := by
      rw [le_div_iff₀ hd0]
      have h8 := mul_le_mul_of_nonneg_left hdhi (mul_nonneg (by norm_num : (0 : ℚ) ≤ 1 - (6 / 2 ^ 24 + 2 / 2 ^ 25 - 1 / 2 ^ 30)) hq0)
      have e : (1 - (6 / 2 ^ 24 + 2 / 2 ^ 25 - 1 / 2 ^ 30)) * ((c : ℚ) / M) * ((1 + 6 / 2 ^ 24 - 1 / 2 ^ 25) * M) =
          ((1 - (6 / 2 ^ 24 + 2 / 2 ^ 25 - 1 / 2 ^ 30)) * (1 + 6 / 2 ^ 24 - 1 / 2 ^ 25)) * c := by
        linear_combination ((1 - (6 / 2 ^ 24 + 2 / 2 ^ 25 - 1 / 2 ^ 30)) * (1 + 6 / 2 ^ 24 - 1 / 2 ^ 25)) * hcM
      rw [e] at h8
      have k : ((1 - (6 / 2 ^ 24 + 2 / 2 ^ 25 - 1 / 2 ^ 30)) * (1 + 6 / 2 ^ 24 - 1 / 2 ^ 25) : ℚ) ≤ 1 - 1 / 2 ^ 24 := by norm_num
      have := mul_le_mul_of_nonneg_right k hc0
      linarith
    have hhi : b / d ≤ (1 + (6 / 2 ^ 24 + 2 / 2 ^ 25 - 1 / 2 ^ 30)) * ((c : ℚ) / M) := by
      rw [div_le_iff₀ hd0]
      have h8 := mul_le_mul_of_nonneg_left hdlo (mul_nonneg (by norm_num : (0 : ℚ) ≤ 1 + (6 / 2 ^ 24 + 2 / 2 ^ 25 - 1 / 2 ^ 30)) hq0)
      have e : (1 + (6 / 2 ^ 24 + 2 / 2 ^ 25 - 1 / 2 ^ 30)) * ((c : ℚ) / M) * ((1 - 6 / 2 ^ 24 + 1 / 2 ^ 25) * M) =
          ((1 + (6 / 2 ^ 24 + 2 / 2 ^ 25 - 1 / 2 ^ 30)) * (1 - 6 / 2 ^ 24 + 1 / 2 ^ 25)) * c := by
        linear_combination ((1 + (6 / 2 ^ 24 + 2 / 2 ^ 25 - 1 / 2 ^ 30)) * (1 - 6 / 2 ^ 24 + 1 / 2 ^ 25)) * hcM
      rw [e] at h8
      have k : (1 + 1 / 2 ^ 24 : ℚ) ≤ (1 + (6 / 2 ^ 24 + 2 / 2 ^ 25 - 1 / 2 ^ 30)) * (1 - 6 / 2 ^ 24 + 1 / 2 ^ 25) := by norm_num
      have := mul_le_mul_of_nonneg_right k hc0
      linarith
    refine abs_le.2 ⟨?_, ?_⟩ <;> linarith
  obtain ⟨_, h8⟩ := IEEE.rnd_two (p := 24) hq0 (by norm_num) (by norm_num) h7
  refine le_trans h8 (mul_le_mul_of_nonneg_right (by norm_num) hq0)

/-- C96 in single precision: with `m ≥ 2` edges the result differs from that of C96_range_partial by at most its
`2^-21`th part; with three edges or more it is below 1; with fewer than two the code divides 0 by 0. -/
theorem C96_float_partial (hK : K.Lawful) (hF : K.ForcedPure) {n : Nat} (h2 : 2 ≤ n) (hn : n ≤ 9999999) {es : List Edge}
    (hes : ∀ e ∈ es, InRange n e) {g : DK K} (hr : DK.run K realSizing n (es.map Op.add) = .ok g) :
    (es.toFinset.card ≤ 1 → g.iface.triangles = .ok 0 ∧ g.iface.clusteringF = .ok none) ∧
    (2 ≤ es.toFinset.card → ∃ q x : ℚ, g.iface.clustering ℚ = .ok (some q) ∧ g.iface.clusteringF = .ok (some x) ∧
      |x - q| ≤ 1 / 2 ^ 21 * q ∧ (3 ≤ es.toFinset.card → x < 1)) := by
  obtain ⟨g', h1, h3, hf⟩ := built hK hF h2 hn hes
  rw [hr] at h1; cases h1
  have hm : g.iface.nEdges = es.toFinset.card := by
    obtain ⟨l, l1, l2, l3⟩ := hf.nEdges
    rw [← l1, ← List.toFinset_card_of_nodup l2]
    congr 1
    ext e
    rw [List.mem_toFinset, l3, List.mem_toFinset]
  obtain ⟨c1, c2⟩ := C96_range_partial (F := ℚ) hK hF h2 hn hes hr
  constructor
  · intro hle
    obtain ⟨t1, _⟩ := c1 hle
    refine ⟨t1, ?_⟩
    unfold GraphI.clusteringF
    rw [t1, hm, Res.ok_bind]
    have hz : IEEE.rnd 24 0 = 0 := by unfold IEEE.rnd; simp
    rcases Nat.lt_or_ge es.toFinset.card 1 with h0 | h0
    · have : es.toFinset.card = 0 := by omega
      rw [this]
      simp [hz]
    · have : es.toFinset.card = 1 := by omega
      rw [this]
      have h1 : IEEE.rnd 24 1 = 1 := by decide +kernel
      simp [h1, hz]
  · intro hge
    obtain ⟨q, q1, q2, _, q4, _, _⟩ := c2 hge
    obtain ⟨c, hc⟩ : ∃ c, g.iface.triangles = .ok c := ⟨_, triangles_eq hf⟩
    have hq : q = (c : ℚ) / ((es.toFinset.card : ℚ) * ((es.toFinset.card : ℚ) - 1)) := by
      unfold GraphI.clustering at q1
      rw [hc, hm, Res.ok_bind] at q1
      split at q1
      · cases q1
      · exact (Option.some.inj (Res.ok.inj q1)).symm
    obtain ⟨k1, k2⟩ := clusteringF_near es.toFinset.card c hge
    obtain ⟨x, hx⟩ : ∃ x, x = IEEE.rnd 24 (IEEE.rnd 24 (c : ℚ) / IEEE.rnd 24 (IEEE.rnd 24 (es.toFinset.card : ℚ) *
      IEEE.rnd 24 (IEEE.rnd 24 (es.toFinset.card : ℚ) - 1))) := ⟨_, rfl⟩
    rw [← hx] at k2
    refine ⟨q, x, q1, ?_, ?_, fun hge3 => ?_⟩
    · unfold GraphI.clusteringF
      rw [hc, hm, Res.ok_bind]
      simp only [if_neg k1, hx]
    · rw [hq]; exact k2
    · rw [← hq] at k2
      have h3' : (3 : ℚ) ≤ (es.toFinset.card : ℚ) := by exact_mod_cast hge3
      have h4 := (abs_le.1 k2).2
      have h5 : q ≤ 3 / 4 := by
        by_contra hcon
        have := not_le.1 hcon
        nlinarith
      have h6 : (1 + 1 / 2 ^ 21 : ℚ) * q ≤ (1 + 1 / 2 ^ 21) * (3 / 4) := mul_le_mul_of_nonneg_left h5 (by norm_num)
      have h7 : (1 + 1 / 2 ^ 21 : ℚ) * (3 / 4) < 1 := by norm_num
      linarith

/-- Instance: seven edges, one triangle counted: the `float` nearest to 1/42. -/
example : ∃ g : DK refK2, run refK2 realSizing 6 ([(0, 1), (0, 2), (2, 1), (1, 3), (1, 4), (1, 5), (2, 3)].map Op.add) = .ok g ∧
    decide (g.iface.clusteringF = .ok (some (IEEE.rnd 24 (1 / 42))) ∧ IEEE.rnd 24 (1 / 42) ≠ 1 / 42) = true :=
  real_check (by decide) (by decide +kernel)

end DK2
