import Verif.PropsCost
import Verif.FloatSizing
import Verif.Calib
/-!
# C109: the amortised cost of insertions with computed thresholds

C72 bounds the cost of insertions for the exact thresholds, where `MAXSZ(m,0)` does not decrease with `m`.  A computed
`MAXSZ` may decrease when an edge is added; then the buffer can hold more edges than the threshold allows.
-/

namespace DK2
open DK

variable {K : K2Impl}

/-- The exact quotient below `floor` in `MAXSZ(m,i)`. -/
noncomputable def quot (m i : ℕ) : ℝ := 2 * m / Real.logb 2 m ^ (2 - (i : ℝ) * (1 / 4))

theorem quot_zero_mono {m m' : ℕ} (h1 : 8 ≤ m) (h2 : m ≤ m') : quot m 0 ≤ quot m' 0 := by
  unfold quot
  have e : (2 : ℝ) - ((0 : ℕ) : ℝ) * (1 / 4) = ((2 : ℕ) : ℝ) := by norm_num
  rw [e, Real.rpow_natCast, Real.rpow_natCast]
  exact quot_mono h1 h2

theorem quot_succ {m i : ℕ} (hm : 2 ≤ m) : quot m (i + 1) = quot m i * Real.logb 2 m ^ (1 / 4 : ℝ) := by
  have hL0 : 0 < Real.logb 2 m := by have := logb_pos hm; linarith
  unfold quot
  have e : (2 : ℝ) - (i : ℝ) * (1 / 4) = (2 - ((i + 1 : ℕ) : ℝ) * (1 / 4)) + 1 / 4 := by
    push_cast; ring
  rw [e, Real.rpow_add hL0]
  have h1 : Real.logb 2 m ^ (1 / 4 : ℝ) ≠ 0 := by positivity
  have h2 : Real.logb 2 m ^ (2 - ((i + 1 : ℕ) : ℝ) * (1 / 4)) ≠ 0 := by positivity
  field_simp

theorem quot_le {m : ℕ} (hm : 2 ≤ m) : ∀ i, quot m 0 ≤ quot m i
  | 0 => le_refl _
  | i + 1 => by
    refine (quot_le hm i).trans ?_
    rw [quot_succ hm]
    have hL := logb_pos hm
    have h1 : 1 ≤ Real.logb 2 m ^ (1 / 4 : ℝ) := Real.one_le_rpow hL (by norm_num)
    have h2 : 0 ≤ quot m i := by unfold quot; positivity
    nlinarith

theorem quot_eight : quot 8 0 = 16 / 9 := by
  unfold quot
  have h : Real.logb 2 (8 : ℕ) = 3 := by
    rw [show ((8 : ℕ) : ℝ) = (2 : ℝ) ^ (3 : ℝ) by norm_num]
    exact Real.logb_rpow (by norm_num) (by norm_num)
  rw [h]
  norm_num

section
variable {A : FloatLib} (hA : A.Accurate)
include hA

/-- The computed threshold lies within `floor` and rounding of the exact quotient. -/
theorem fquot {m i : ℕ} (hm : 2 ≤ m) (hM : m < 2 ^ 52) (hi : i ≤ 8) :
    ((floatSizing A).maxsz m i : ℝ) ≤ quot m i * (1 + 6 * feps) ∧
    quot m i * (1 - 6 * feps) < (floatSizing A).maxsz m i + 1 := by
  obtain ⟨a, b⟩ := fmax hA hm hM hi
  rw [floatSizing_maxsz A i hm hM]
  change quot m i * (1 - 6 * feps) ≤ _ at a
  change _ ≤ quot m i * (1 + 6 * feps) at b
  have hq : 0 ≤ quot m i := by
    have hL := logb_pos hm
    unfold quot; positivity
  have e' := feps_le
  have h0 : 0 ≤ A.div (2 * m) (A.pow (A.log2 m) (2 - (i : ℝ) * (1 / 4))) := by
    refine le_trans (mul_nonneg hq ?_) a
    linarith
  exact ⟨(Nat.floor_le h0).trans b, lt_of_le_of_lt a (Nat.lt_floor_add_one _)⟩

theorem fmaxsz_pos {m i : ℕ} (hm : 8 ≤ m) (hM : m < 2 ^ 52) (hi : i ≤ 8) : 1 ≤ (floatSizing A).maxsz m i := by
  obtain ⟨a, b⟩ := fmax hA (by omega : 2 ≤ m) hM hi
  rw [floatSizing_maxsz A i (by omega) hM]
  change quot m i * (1 - 6 * feps) ≤ _ at a
  refine Nat.le_floor ?_
  have h1 := quot_zero_mono (le_refl 8) hm
  have h2 := quot_le (m := m) (by omega) i
  rw [quot_eight] at h1
  have e' := feps_le
  push_cast
  nlinarith

/-- The next level and what the buffer may hold beyond its threshold, together. -/
theorem fmaxsz_ratio {m m0 N i : ℕ} (h8 : 8 ≤ m0) (h0 : m0 ≤ m) (hN : m ≤ N) (hM : m < 2 ^ 52) (hi : i < 8) :
    (((floatSizing A).maxsz m (i + 1) + ((floatSizing A).maxsz m0 0 - (floatSizing A).maxsz m 0) : ℕ) : ℝ) ≤
      4 * Real.logb 2 N ^ (1 / 4 : ℝ) * (floatSizing A).maxsz m i := by
  obtain ⟨a1, a2⟩ := fquot hA (by omega : 2 ≤ m) hM (by omega : i ≤ 8)
  obtain ⟨b1, b2⟩ := fquot hA (by omega : 2 ≤ m) hM (by omega : i + 1 ≤ 8)
  obtain ⟨c1, c2⟩ := fquot hA (by omega : 2 ≤ m) hM (by omega : 0 ≤ 8)
  obtain ⟨d1, d2⟩ := fquot hA (by omega : 2 ≤ m0) (by omega) (by omega : 0 ≤ 8)
  have hp := fmaxsz_pos hA (by omega : 8 ≤ m) hM (by omega : i ≤ 8)
  have hq0 := quot_zero_mono h8 h0
  have hqi := quot_le (m := m) (by omega) i
  rw [quot_succ (by omega)] at b1
  have hm2 : (2 : ℝ) ≤ m := by exact_mod_cast (by omega : 2 ≤ m)
  have hL1 : 1 ≤ Real.logb 2 m := logb_pos (by omega)
  have hLN : Real.logb 2 m ≤ Real.logb 2 N :=
    Real.logb_le_logb_of_le (by norm_num) (by linarith) (by exact_mod_cast hN)
  have hr1 : 1 ≤ Real.logb 2 m ^ (1 / 4 : ℝ) := Real.one_le_rpow hL1 (by norm_num)
  have hrN : Real.logb 2 m ^ (1 / 4 : ℝ) ≤ Real.logb 2 N ^ (1 / 4 : ℝ) :=
    Real.rpow_le_rpow (by linarith) hLN (by norm_num)
  have hx0 : 0 ≤ quot m 0 := by unfold quot; positivity
  have hp' : (1 : ℝ) ≤ (floatSizing A).maxsz m i := by exact_mod_cast hp
  have e := feps_pos
  have e' := feps_le
  generalize Real.logb 2 (m : ℝ) ^ (1 / 4 : ℝ) = r at *
  generalize Real.logb 2 (N : ℝ) ^ (1 / 4 : ℝ) = R at *
  generalize hv : ((floatSizing A).maxsz m i : ℝ) = v at *
  -- the exact quotient of level `i`
  have hx : quot m i ≤ 1001 / 500 * v := by nlinarith
  have hn : ((floatSizing A).maxsz m (i + 1) : ℝ) ≤ 2003 / 1000 * v * r := by
    have h1 : quot m i * r ≤ 1001 / 500 * v * r := mul_le_mul_of_nonneg_right hx (by linarith)
    have h2 : 0 ≤ v * r := by positivity
    nlinarith
  have hdrop : (((floatSizing A).maxsz m0 0 - (floatSizing A).maxsz m 0 : ℕ) : ℝ) ≤ 3 / 2 * v := by
    rcases Nat.le_total ((floatSizing A).maxsz m0 0) ((floatSizing A).maxsz m 0) with h | h
    · rw [Nat.sub_eq_zero_of_le h]; push_cast; linarith
    · rw [Nat.cast_sub h]
      have h1 : quot m0 0 * feps ≤ quot m i * feps := mul_le_mul_of_nonneg_right (hq0.trans hqi) e.le
      have h2 : quot m 0 * feps ≤ quot m i * feps := mul_le_mul_of_nonneg_right hqi e.le
      have h3 : quot m i * feps ≤ 1001 / 500 * v * (1 / 1000) := by
        apply mul_le_mul hx (by linarith) e.le (by linarith)
      nlinarith
  rw [Nat.cast_add]
  have h4 : v * r ≤ v * R := mul_le_mul_of_nonneg_left hrN (by linarith)
  have h5 : v ≤ v * r := by nlinarith
  nlinarith

theorem fmaxsz_low {n m : ℕ} (hn : 8 ≤ n) (h : n ≤ m) (hM : m < 2 ^ 52) :
    ⌊quot n 0 * (1 - 6 * feps)⌋₊ ≤ (floatSizing A).maxsz m 0 := by
  have e' := feps_le
  have h1 := quot_zero_mono hn h
  obtain ⟨a, b⟩ := fmax hA (by omega : 2 ≤ m) hM (by omega : 0 ≤ 8)
  rw [floatSizing_maxsz A 0 (by omega) hM]
  change quot m 0 * (1 - 6 * feps) ≤ _ at a
  refine Nat.floor_le_floor (le_trans ?_ a)
  exact mul_le_mul_of_nonneg_right h1 (by linarith)

/-- C109: on a `DKtree` with `n ≥ 8` vertices and computed thresholds, whatever fewer than `2^52` edges are inserted in
whatever order (duplicates included), all insertions together write at most `288·(log2 N)^(1/4)` edges into trees per
insertion, where `N` is the larger of the number of vertices and of insertions, and the buffer is flushed at most once
every `0.999·MAXSZ(n,0)` insertions. -/
theorem C109_amortized (hK : K.Lawful) (hF : K.ForcedPure) {n : Nat} (hn : 8 ≤ n) {es : List Edge}
    (hes : ∀ e ∈ es, InRange n e) (hsz : max n es.length < 2 ^ 52) :
    ∃ (g : DK K) (w c : Nat), runC K (floatSizing A) n es = .ok (g, w, c) ∧
      run K (floatSizing A) n (es.map Op.add) = .ok g ∧
      (w : ℝ) ≤ 288 * (Real.logb 2 (max n es.length : Nat)) ^ (1 / 4 : ℝ) * es.length ∧
      999 / 1000 * (c * (floatSizing A).maxsz n 0 : ℝ) ≤ es.length := by
  obtain ⟨gi, i1, i2, i3, i4⟩ := run_inserts hK hF (floatSizing_top hA) (n := n) (by omega) (es := []) (by simp)
  obtain ⟨hgi, hn1⟩ := run_nil (show run K (floatSizing A) n [] = .ok gi from i1)
  have hL : 0 ≤ Real.logb 2 (max n es.length : Nat) := by
    have := logb_pos (m := max n es.length) (by omega)
    linarith
  have hR0 : 0 ≤ 4 * (Real.logb 2 (max n es.length : Nat)) ^ (1 / 4 : ℝ) := by positivity
  subst hgi
  have hs0 : (init K (floatSizing A) n).c0.size = 0 := rfl
  have ht0 : (init K (floatSizing A) n).nTotal = 0 := rfl
  obtain ⟨g, w, c, k1, k2, k3, k4⟩ := insertsC_slack hK hF (floatSizing_top hA) (by omega) hR0
    (L := ⌊quot n 0 * (1 - 6 * feps)⌋₊) es i2 i4 i3
    ⟨n, by omega, by omega, by rw [hs0]; omega⟩ hes (fun m i hm hm' hi => by
      rw [ht0] at hm'
      exact ⟨fmaxsz_low hA hn hm (by omega), fun m0 h1 h2 =>
        fmaxsz_ratio hA (by omega) h2 (by omega) (by omega) hi⟩)
  have hcr : create K (floatSizing A) n = .ok (init K (floatSizing A) n) := by unfold create; rw [if_neg hn1]
  refine ⟨g, w, c, ?_, ?_, ?_, ?_⟩
  · unfold runC; rw [hcr]; exact k1
  · show (create K (floatSizing A) n >>= fun g => runFrom (floatSizing A) g (inserts es)) = .ok g
    rw [hcr]; exact k2
  · have hphi : phi K (init K (floatSizing A) n).ks = 0 := phi_replicate _
    rw [hs0, hphi] at k3
    have h1 : 0 ≤ 9 * (4 * (Real.logb 2 (max n es.length : Nat)) ^ (1 / 4 : ℝ)) *
      ((RS * g.c0.size + phi K g.ks : Nat) : ℝ) := by positivity
    have h2 : ((RS * 0 + 0 + RS * es.length : Nat) : ℝ) = 8 * (es.length : ℝ) := by
      simp [RS]
    rw [h2] at k3
    linarith
  · rw [hs0] at k4
    obtain ⟨a, _⟩ := fquot hA (by omega : 2 ≤ n) (by omega) (by omega : 0 ≤ 8)
    have e := feps_pos
    have e' := feps_le
    have h1 := Nat.lt_floor_add_one (quot n 0 * (1 - 6 * feps))
    have h2 : c * (⌊quot n 0 * (1 - 6 * feps)⌋₊ + 1) ≤ es.length := by omega
    have h3 : (c : ℝ) * ((⌊quot n 0 * (1 - 6 * feps)⌋₊ : ℝ) + 1) ≤ es.length := by exact_mod_cast h2
    have hq : 0 ≤ quot n 0 := by
      have := logb_pos (m := n) (by omega)
      unfold quot; positivity
    have h4 : 999 / 1000 * ((floatSizing A).maxsz n 0 : ℝ) ≤ (⌊quot n 0 * (1 - 6 * feps)⌋₊ : ℝ) + 1 := by nlinarith
    have hc : (0 : ℝ) ≤ c := by positivity
    calc 999 / 1000 * (c * (floatSizing A).maxsz n 0 : ℝ)
        = c * (999 / 1000 * ((floatSizing A).maxsz n 0 : ℝ)) := by ring
      _ ≤ c * ((⌊quot n 0 * (1 - 6 * feps)⌋₊ : ℝ) + 1) := mul_le_mul_of_nonneg_left h4 hc
      _ ≤ es.length := h3

end

end DK2
