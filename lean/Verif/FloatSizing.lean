import Verif.RealTab
import Mathlib.Analysis.Convex.SpecificFunctions.Basic
/-!
# The threshold formulas of `utils.hpp` in floating point

The code evaluates `MAXSZ` and `TAU` with `double`.  Here the C library is an unknown `FloatLib`; all that is assumed of it
is a relative error of at most `2^-40` (a few thousand units in the last place of a `double`) and that an integer result
is returned exactly.
-/

namespace DK2

/-- The floating-point functions the thresholds use (utils.hpp:7,8): `log2`, `pow` and `/` on `double`.  A `double` is
represented by the real number it stands for; the functions are total, their values at reals that are no `double` do not
matter. -/
structure FloatLib where
  log2 : ℝ → ℝ
  pow : ℝ → ℝ → ℝ
  div : ℝ → ℝ → ℝ

/-- `x` is an acceptable computed value for the exact value `y`: relative error at most `2^-40`, and no error if `y` is a
natural number. -/
def Rounds (x y : ℝ) : Prop := |x - y| ≤ y / 2 ^ 40 ∧ ∀ k : ℕ, y = k → x = k

/-- What is assumed of the library, on the ranges the code uses.  IEEE-754 division and the `log2` and `pow` of every
common C library satisfy it (their error is about `2^-52`). -/
structure FloatLib.Accurate (A : FloatLib) : Prop where
  log2 : ∀ x, 1 ≤ x → x ≤ 2 ^ 52 → Rounds (A.log2 x) (Real.logb 2 x)
  pow : ∀ x y, 1 / 2 ≤ x → x ≤ 64 → 0 ≤ y → y ≤ 2 → Rounds (A.pow x y) (x ^ y)
  div : ∀ x y, 1 ≤ x → x ≤ 2 ^ 53 → 1 / 4 ≤ y → y ≤ 2 ^ 13 → Rounds (A.div x y) (x / y)

/-- `MAXSZ` and the rebuild test (utils.hpp:6-9, DKtree.hpp:207), every operation rounded by the library `A`.  The integers
`m`, `2m`, `n` and `2 - i*EPS` are exact as `double` below `2^53`; for `2^52` edges or more the formula of `realSizing`
stands in (not modelled in floating point).  A count `k` of marked edges beyond `2^53` compares the same after rounding.
`MAXSZ(0,i)` and `MAXSZ(1,i)` are not evaluated (`n_vertices ≥ 2`).  Special cases of the test as in `realSizing`. -/
noncomputable def floatSizing (A : FloatLib) : Sizing where
  maxsz m i :=
    if 2 ≤ m ∧ m < 2 ^ 52 then ⌊A.div (2 * m) (A.pow (A.log2 m) (2 - (i : ℝ) * (1 / 4)))⌋₊ else realSizing.maxsz m i
  rebuild k n :=
    if n = 0 then false
    else if n = 1 then decide (0 < k)
    else if n = 2 then false
    else if n < 2 ^ 52 then @decide (A.div n (A.log2 (A.log2 n)) < (k : ℝ)) (Classical.propDecidable _)
    else realSizing.rebuild k n

/-! ## Error bounds -/

/-- The relative error of one operation. -/
noncomputable def feps : ℝ := 1 / 2 ^ 40

theorem feps_eq : feps = 1 / 2 ^ 40 := rfl
theorem feps_pos : 0 < feps := by unfold feps; positivity
theorem feps_le : feps ≤ 1 / 1000000000000 * 2 := by unfold feps; norm_num

theorem Rounds.lo {x y : ℝ} (h : Rounds x y) : y * (1 - feps) ≤ x := by
  have := (abs_le.1 h.1).1
  unfold feps
  linarith

theorem Rounds.hi {x y : ℝ} (h : Rounds x y) : x ≤ y * (1 + feps) := by
  have := (abs_le.1 h.1).2
  unfold feps
  linarith

theorem logb_le_52 {m : ℕ} (hm : 2 ≤ m) (h : m < 2 ^ 52) : Real.logb 2 m ≤ 52 := by
  have := logb_le (m := m) (c := 52) (d := 1) hm (by norm_num) (by rw [pow_one]; omega)
  simpa using this

section
variable {A : FloatLib} (hA : A.Accurate) {m : ℕ} (hm : 2 ≤ m) (hM : m < 2 ^ 52)
include hA hm hM

theorem flog2 : Rounds (A.log2 m) (Real.logb 2 m) := by
  refine hA.log2 m ?_ ?_
  · exact_mod_cast (by omega : 1 ≤ m)
  · exact_mod_cast (by omega : m ≤ 2 ^ 52)

theorem flog2_range : 1 / 2 ≤ A.log2 m ∧ A.log2 m ≤ 64 := by
  have h := flog2 hA hm hM
  have h1 := logb_pos hm
  have h2 := logb_le_52 hm hM
  have e := feps_pos
  have e' := feps_le
  refine ⟨?_, ?_⟩
  · have := h.lo
    nlinarith
  · have := h.hi
    nlinarith

/-- The divisor of `MAXSZ`. -/
theorem fpow {i : ℕ} (hi : i ≤ 8) :
    Real.logb 2 m ^ (2 - (i : ℝ) * (1 / 4)) * (1 - 3 * feps) ≤ A.pow (A.log2 m) (2 - (i : ℝ) * (1 / 4)) ∧
    A.pow (A.log2 m) (2 - (i : ℝ) * (1 / 4)) ≤ Real.logb 2 m ^ (2 - (i : ℝ) * (1 / 4)) * (1 + 4 * feps) := by
  obtain ⟨r1, r2⟩ := flog2_range hA hm hM
  have h := flog2 hA hm hM
  have h1 := logb_pos hm
  have hl := h.lo
  have hh := h.hi
  have e := feps_pos
  have e' := feps_le
  have hi' : (i : ℝ) ≤ 8 := by exact_mod_cast hi
  have hi0 : (0 : ℝ) ≤ i := by positivity
  have hq0 : 0 ≤ 2 - (i : ℝ) * (1 / 4) := by linarith
  have hq2 : 2 - (i : ℝ) * (1 / 4) ≤ 2 := by linarith
  have hp := hA.pow _ _ r1 r2 hq0 hq2
  generalize 2 - (i : ℝ) * (1 / 4) = q at *
  generalize Real.logb 2 m = L at *
  generalize A.log2 m = L' at *
  have hL : 0 < L := by linarith
  have hpos : 0 < L ^ q := Real.rpow_pos_of_pos hL _
  have a1 : L ^ q * (1 - feps) ^ 2 ≤ L' ^ q := by
    have s1 : (L * (1 - feps)) ^ q ≤ L' ^ q := Real.rpow_le_rpow (by nlinarith) hl hq0
    rw [Real.mul_rpow hL.le (by linarith)] at s1
    have s2 : (1 - feps) ^ (2 : ℝ) ≤ (1 - feps) ^ q :=
      Real.rpow_le_rpow_of_exponent_ge (by linarith) (by linarith) hq2
    have s3 : (1 - feps) ^ (2 : ℝ) = (1 - feps) ^ 2 := by
      rw [show (2 : ℝ) = ((2 : ℕ) : ℝ) by norm_num, Real.rpow_natCast]
    rw [s3] at s2
    calc L ^ q * (1 - feps) ^ 2 ≤ L ^ q * (1 - feps) ^ q := by gcongr
      _ ≤ L' ^ q := s1
  have a2 : L' ^ q ≤ L ^ q * (1 + feps) ^ 2 := by
    have s1 : L' ^ q ≤ (L * (1 + feps)) ^ q := Real.rpow_le_rpow (by linarith) hh hq0
    rw [Real.mul_rpow hL.le (by linarith)] at s1
    have s2 : (1 + feps) ^ q ≤ (1 + feps) ^ (2 : ℝ) :=
      Real.rpow_le_rpow_of_exponent_le (by linarith) hq2
    have s3 : (1 + feps) ^ (2 : ℝ) = (1 + feps) ^ 2 := by
      rw [show (2 : ℝ) = ((2 : ℕ) : ℝ) by norm_num, Real.rpow_natCast]
    rw [s3] at s2
    calc L' ^ q ≤ L ^ q * (1 + feps) ^ q := s1
      _ ≤ L ^ q * (1 + feps) ^ 2 := by gcongr
  have b1 := hp.lo
  have b2 := hp.hi
  constructor
  · refine le_trans ?_ b1
    calc L ^ q * (1 - 3 * feps) ≤ L ^ q * ((1 - feps) ^ 2 * (1 - feps)) := by
          apply mul_le_mul_of_nonneg_left _ hpos.le
          nlinarith [mul_pos e e, mul_pos (mul_pos e e) e]
      _ = (L ^ q * (1 - feps) ^ 2) * (1 - feps) := by ring
      _ ≤ L' ^ q * (1 - feps) := mul_le_mul_of_nonneg_right a1 (by linarith)
  · refine le_trans b2 ?_
    calc L' ^ q * (1 + feps) ≤ (L ^ q * (1 + feps) ^ 2) * (1 + feps) :=
          mul_le_mul_of_nonneg_right a2 (by linarith)
      _ = L ^ q * ((1 + feps) ^ 2 * (1 + feps)) := by ring
      _ ≤ L ^ q * (1 + 4 * feps) := by
          apply mul_le_mul_of_nonneg_left _ hpos.le
          have : feps * feps ≤ feps * (1 / 1000) := mul_le_mul_of_nonneg_left (by linarith) e.le
          have : feps * feps * feps ≤ feps * feps * (1 / 1000) := mul_le_mul_of_nonneg_left (by linarith) (by positivity)
          nlinarith

omit hA in
theorem rpow_range {i : ℕ} (hi : i ≤ 8) : 1 ≤ Real.logb 2 m ^ (2 - (i : ℝ) * (1 / 4)) ∧
    Real.logb 2 m ^ (2 - (i : ℝ) * (1 / 4)) ≤ 2704 := by
  have h1 := logb_pos hm
  have h2 := logb_le_52 hm hM
  have hi' : (i : ℝ) ≤ 8 := by exact_mod_cast hi
  have hi0 : (0 : ℝ) ≤ i := by positivity
  have hq0 : 0 ≤ 2 - (i : ℝ) * (1 / 4) := by linarith
  have hq2 : 2 - (i : ℝ) * (1 / 4) ≤ 2 := by linarith
  refine ⟨Real.one_le_rpow h1 hq0, ?_⟩
  calc Real.logb 2 m ^ (2 - (i : ℝ) * (1 / 4)) ≤ Real.logb 2 m ^ (2 : ℝ) :=
        Real.rpow_le_rpow_of_exponent_le h1 hq2
    _ = Real.logb 2 m ^ 2 := by rw [show (2 : ℝ) = ((2 : ℕ) : ℝ) by norm_num, Real.rpow_natCast]
    _ ≤ 2704 := by nlinarith

/-- `MAXSZ` before `floor`, against the exact quotient. -/
theorem fmax {i : ℕ} (hi : i ≤ 8) :
    2 * m / Real.logb 2 m ^ (2 - (i : ℝ) * (1 / 4)) * (1 - 6 * feps) ≤
      A.div (2 * m) (A.pow (A.log2 m) (2 - (i : ℝ) * (1 / 4))) ∧
    A.div (2 * m) (A.pow (A.log2 m) (2 - (i : ℝ) * (1 / 4))) ≤
      2 * m / Real.logb 2 m ^ (2 - (i : ℝ) * (1 / 4)) * (1 + 6 * feps) := by
  obtain ⟨p1, p2⟩ := fpow hA hm hM hi
  obtain ⟨q1, q2⟩ := rpow_range hm hM hi
  have e := feps_pos
  have e' := feps_le
  have hm0 : (1 : ℝ) ≤ 2 * m := by
    have : (2 : ℝ) ≤ m := by exact_mod_cast hm
    linarith
  have hm1 : (2 * m : ℝ) ≤ 2 ^ 53 := by exact_mod_cast (by omega : 2 * m ≤ 2 ^ 53)
  generalize A.pow (A.log2 m) (2 - (i : ℝ) * (1 / 4)) = P' at *
  generalize Real.logb 2 m ^ (2 - (i : ℝ) * (1 / 4)) = P at *
  have hd := hA.div (2 * m) P' hm0 hm1 (by nlinarith) (by nlinarith)
  have hP' : 0 < P' := by nlinarith
  have hP : 0 < P := by linarith
  have b1 := hd.lo
  have b2 := hd.hi
  generalize (2 * m : ℝ) = M at *
  have hM0 : 0 < M := by linarith
  have hee : feps * feps ≤ feps * (1 / 1000) := mul_le_mul_of_nonneg_left (by linarith) e.le
  constructor
  · refine le_trans ?_ b1
    rw [div_mul_eq_mul_div, div_mul_eq_mul_div, div_le_div_iff₀ hP hP']
    have s1 : M * (1 - 6 * feps) * P' ≤ M * (1 - 6 * feps) * (P * (1 + 4 * feps)) := by
      apply mul_le_mul_of_nonneg_left p2
      apply mul_nonneg hM0.le; linarith
    have s2 : (1 - 6 * feps) * (1 + 4 * feps) ≤ 1 - feps := by nlinarith
    calc M * (1 - 6 * feps) * P' ≤ M * (1 - 6 * feps) * (P * (1 + 4 * feps)) := s1
      _ = M * P * ((1 - 6 * feps) * (1 + 4 * feps)) := by ring
      _ ≤ M * P * (1 - feps) := mul_le_mul_of_nonneg_left s2 (by positivity)
      _ = M * (1 - feps) * P := by ring
  · refine le_trans b2 ?_
    rw [div_mul_eq_mul_div, div_mul_eq_mul_div, div_le_div_iff₀ hP' hP]
    have s1 : M * (1 + 6 * feps) * (P * (1 - 3 * feps)) ≤ M * (1 + 6 * feps) * P' := by
      apply mul_le_mul_of_nonneg_left p1
      apply mul_nonneg hM0.le; linarith
    have s2 : 1 + feps ≤ (1 + 6 * feps) * (1 - 3 * feps) := by nlinarith
    calc M * (1 + feps) * P = M * P * (1 + feps) := by ring
      _ ≤ M * P * ((1 + 6 * feps) * (1 - 3 * feps)) := mul_le_mul_of_nonneg_left s2 (by positivity)
      _ = M * (1 + 6 * feps) * (P * (1 - 3 * feps)) := by ring
      _ ≤ M * (1 + 6 * feps) * P' := s1

end

theorem floatSizing_maxsz (A : FloatLib) {m : ℕ} (i : ℕ) (hm : 2 ≤ m) (hM : m < 2 ^ 52) :
    (floatSizing A).maxsz m i = ⌊A.div (2 * m) (A.pow (A.log2 m) (2 - (i : ℝ) * (1 / 4)))⌋₊ :=
  if_pos ⟨hm, hM⟩

/-- The top level holds `2m` edges: `pow(x, 0) = 1` and `2m / 1 = 2m` exactly. -/
theorem floatSizing_top {A : FloatLib} (hA : A.Accurate) : (floatSizing A).Top := by
  intro m
  by_cases h : 2 ≤ m ∧ m < 2 ^ 52
  · rw [floatSizing_maxsz A _ h.1 h.2]
    obtain ⟨r1, r2⟩ := flog2_range hA h.1 h.2
    have e : (2 : ℝ) - ((RS : ℕ) : ℝ) * (1 / 4) = 0 := by norm_num [RS]
    rw [e]
    have h1 : A.pow (A.log2 m) 0 = 1 := by
      have := (hA.pow (A.log2 m) 0 r1 r2 (by norm_num) (by norm_num)).2 1 (by simp)
      simpa using this
    have hm0 : (1 : ℝ) ≤ 2 * m := by exact_mod_cast (by omega : 1 ≤ 2 * m)
    have hm1 : (2 * m : ℝ) ≤ 2 ^ 53 := by exact_mod_cast (by omega : 2 * m ≤ 2 ^ 53)
    have h2 := (hA.div (2 * m) 1 hm0 hm1 (by norm_num) (by norm_num)).2 (2 * m) (by simp)
    rw [h1, h2, Nat.floor_natCast]
  · show (if _ then _ else realSizing.maxsz m RS) = _
    rw [if_neg h, realSizing_top]

/-! ## Small sizes: no difference -/

/-- Evaluation of `MAXSZ(m,i)` from rational bounds `a/b ≤ log2 m ≤ c/d` with some slack. -/
theorem fmaxsz_eq {A : FloatLib} (hA : A.Accurate) {m i v a b c d : ℕ} (hm : 2 ≤ m) (hM : m < 2 ^ 52) (hi : i ≤ 8)
    (hb : 0 < b) (hd : 0 < d) (h1 : 2 ^ a ≤ m ^ b) (h2 : m ^ d ≤ 2 ^ c)
    (h3 : v ^ 4 * c ^ (8 - i) * 1000000 ≤ (2 * m) ^ 4 * d ^ (8 - i) * 999999)
    (h4 : (2 * m) ^ 4 * b ^ (8 - i) * 1000001 < (v + 1) ^ 4 * a ^ (8 - i) * 1000000) :
    (floatSizing A).maxsz m i = v := by
  have l1 := logb_ge hm hb h1
  have l2 := logb_le hm hd h2
  have l0 := logb_pos hm
  obtain ⟨f1, f2⟩ := fmax hA hm hM hi
  rw [floatSizing_maxsz A _ hm hM]
  generalize A.div (2 * m) (A.pow (A.log2 m) (2 - (i : ℝ) * (1 / 4))) = F at *
  generalize Real.logb 2 m = L at *
  have hL : 0 < L := by linarith
  have hb' : (0 : ℝ) < b := by exact_mod_cast hb
  have hd' : (0 : ℝ) < d := by exact_mod_cast hd
  have hp : 0 < L ^ (2 - (i : ℝ) * (1 / 4)) := Real.rpow_pos_of_pos hL _
  have hp4 := rpow_level hL hi
  generalize L ^ (2 - (i : ℝ) * (1 / 4)) = P at *
  have e := feps_pos
  have e' := feps_le
  have hm0 : (0 : ℝ) < 2 * m := by
    have : (2 : ℝ) ≤ m := by exact_mod_cast hm
    linarith
  have t1 : (999999 / 1000000 : ℝ) ≤ (1 - 6 * feps) ^ 4 := by
    have : (999999 / 1000000 : ℝ) ≤ (1 - 1 / 4000000) ^ 4 := by norm_num
    exact le_trans this (pow_le_pow_left₀ (by norm_num) (by linarith) 4)
  have t2 : (1 + 6 * feps) ^ 4 ≤ (1000001 / 1000000 : ℝ) := by
    have : (1 + 1 / 5000000 : ℝ) ^ 4 ≤ 1000001 / 1000000 := by norm_num
    exact le_trans (pow_le_pow_left₀ (by linarith) (by linarith) 4) this
  have g1 : (v : ℝ) ≤ F := by
    refine le_trans ?_ f1
    rw [div_mul_eq_mul_div, le_div_iff₀ hp]
    have h3' : ((v : ℝ) ^ 4 * (c : ℝ) ^ (8 - i)) * 1000000 ≤ (2 * m) ^ 4 * (d : ℝ) ^ (8 - i) * 999999 := by
      exact_mod_cast h3
    have hLc : L ^ (8 - i) ≤ (c : ℝ) ^ (8 - i) / (d : ℝ) ^ (8 - i) := by
      rw [← div_pow]; exact pow_le_pow_left₀ hL.le l2 _
    have : ((v : ℝ) * P) ^ 4 ≤ (2 * m * (1 - 6 * feps)) ^ 4 := by
      rw [mul_pow, hp4, mul_pow (2 * (m : ℝ))]
      calc (v : ℝ) ^ 4 * L ^ (8 - i) ≤ (v : ℝ) ^ 4 * ((c : ℝ) ^ (8 - i) / (d : ℝ) ^ (8 - i)) := by gcongr
        _ = ((v : ℝ) ^ 4 * (c : ℝ) ^ (8 - i)) / (d : ℝ) ^ (8 - i) := by ring
        _ ≤ (2 * m) ^ 4 * (999999 / 1000000) := by rw [div_le_iff₀ (by positivity)]; linarith
        _ ≤ _ := mul_le_mul_of_nonneg_left t1 (by positivity)
    exact le_of_pow_le_pow_left₀ (by norm_num) (mul_nonneg hm0.le (by linarith)) this
  have g2 : F < v + 1 := by
    refine lt_of_le_of_lt f2 ?_
    rw [div_mul_eq_mul_div, div_lt_iff₀ hp]
    have h4' : ((2 * m : ℝ) ^ 4 * (b : ℝ) ^ (8 - i)) * 1000001 < ((v : ℝ) + 1) ^ 4 * (a : ℝ) ^ (8 - i) * 1000000 := by
      exact_mod_cast h4
    have hLa : (a : ℝ) ^ (8 - i) / (b : ℝ) ^ (8 - i) ≤ L ^ (8 - i) := by
      rw [← div_pow]; exact pow_le_pow_left₀ (by positivity) l1 _
    have : (2 * m * (1 + 6 * feps)) ^ 4 < (((v : ℝ) + 1) * P) ^ 4 := by
      rw [mul_pow _ P, hp4, mul_pow (2 * (m : ℝ))]
      calc (2 * m : ℝ) ^ 4 * (1 + 6 * feps) ^ 4 ≤ (2 * m) ^ 4 * (1000001 / 1000000) :=
            mul_le_mul_of_nonneg_left t2 (by positivity)
        _ < (((v : ℝ) + 1) ^ 4 * (a : ℝ) ^ (8 - i)) / (b : ℝ) ^ (8 - i) := by
            rw [lt_div_iff₀ (by positivity)]; linarith
        _ = ((v : ℝ) + 1) ^ 4 * ((a : ℝ) ^ (8 - i) / (b : ℝ) ^ (8 - i)) := by ring
        _ ≤ ((v : ℝ) + 1) ^ 4 * L ^ (8 - i) := by gcongr
    exact lt_of_pow_lt_pow_left₀ 4 (by positivity) this
  exact (Nat.floor_eq_iff (le_trans (by positivity) g1)).2 ⟨g1, g2⟩

/-- Evaluation of `MAXSZ(m,i)` when every intermediate result is an integer: `log2 m = l`, `l^(2-i/4) = p`, `2m = v*p`. -/
theorem fmaxsz_exact {A : FloatLib} (hA : A.Accurate) {m i v l p : ℕ} (hm : 2 ≤ m) (hM : m < 2 ^ 52) (hi : i ≤ 8)
    (h1 : m = 2 ^ l) (h2 : p ^ 4 = l ^ (8 - i)) (h3 : v * p = 2 * m) : (floatSizing A).maxsz m i = v := by
  obtain ⟨r1, r2⟩ := flog2_range hA hm hM
  obtain ⟨q1, q2⟩ := rpow_range hm hM hi
  have hl : Real.logb 2 m = l := by
    rw [h1]; push_cast
    rw [← Real.rpow_natCast, Real.logb_rpow (by norm_num) (by norm_num)]
  have hlog : A.log2 m = l := (flog2 hA hm hM).2 l hl
  have h0 := logb_pos hm
  rw [hl] at h0 q1 q2
  have hl0 : (0 : ℝ) < l := by linarith
  have hi' : (i : ℝ) ≤ 8 := by exact_mod_cast hi
  have hi0 : (0 : ℝ) ≤ i := by positivity
  have hp : (l : ℝ) ^ (2 - (i : ℝ) * (1 / 4)) = p := by
    have h4 := rpow_level hl0 hi
    have h5 : ((l : ℝ) ^ (2 - (i : ℝ) * (1 / 4))) ^ 4 = (p : ℝ) ^ 4 := by
      rw [h4]; exact_mod_cast h2.symm
    exact (pow_left_inj₀ (Real.rpow_nonneg hl0.le _) (by positivity) (by norm_num)).1 h5
  rw [hlog] at r1 r2
  have hpow : A.pow (A.log2 m) (2 - (i : ℝ) * (1 / 4)) = p := by
    rw [hlog]
    exact (hA.pow _ _ r1 r2 (by linarith) (by linarith)).2 p hp
  rw [hp] at q1 q2
  rw [floatSizing_maxsz A _ hm hM, hpow]
  have hm0 : (1 : ℝ) ≤ 2 * m := by exact_mod_cast (by omega : 1 ≤ 2 * m)
  have hm1 : (2 * m : ℝ) ≤ 2 ^ 53 := by exact_mod_cast (by omega : 2 * m ≤ 2 ^ 53)
  have hdiv := (hA.div (2 * m) p hm0 hm1 (by linarith) (by linarith)).2 v (by
    rw [div_eq_iff (by linarith)]; exact_mod_cast h3.symm)
  rw [hdiv, Nat.floor_natCast]

/-- `(a, b, c)` with `a/b ≤ log2 m ≤ c/b`, tighter than `hybLog` where needed. -/
def fhybLog : Nat → Nat × Nat × Nat
  | 10 => (162, 49, 163)
  | 13 => (62, 17, 63)
  | 15 => (62, 16, 63)
  | 26 => (188, 40, 189)
  | 33 => (85, 17, 86)
  | m => hybLog m

/-- The numeric facts behind one entry of the table, with slack or exactly. -/
def fhybOk (m i : Nat) : Bool :=
  let v := ((hybMax m)[i]?).getD 0
  let l := fhybLog m
  decide (0 < l.2.1 ∧ 2 ^ l.1 ≤ m ^ l.2.1 ∧ m ^ l.2.1 ≤ 2 ^ l.2.2 ∧
    v ^ 4 * l.2.2 ^ (8 - i) * 1000000 ≤ (2 * m) ^ 4 * l.2.1 ^ (8 - i) * 999999 ∧
    (2 * m) ^ 4 * l.2.1 ^ (8 - i) * 1000001 < (v + 1) ^ 4 * l.1 ^ (8 - i) * 1000000) ||
  (decide (m = 2 ^ l.1) && (List.range 17).any (fun p => decide (p ^ 4 = l.1 ^ (8 - i) ∧ v * p = 2 * m)))

theorem fhyb_all : ∀ m, m < 36 → 2 ≤ m → ∀ i, i < 8 → fhybOk m i = true := by decide +kernel

/-- Below 36 vertices and edges every accurate library computes the exact thresholds. -/
theorem fhyb_maxsz {A : FloatLib} (hA : A.Accurate) {m i : Nat} (h1 : 2 ≤ m) (h2 : m < 36) (hi : i < 9) :
    (floatSizing A).maxsz m i = realSizing.maxsz m i := by
  by_cases h8 : i = 8
  · subst h8
    rw [show (8 : Nat) = RS from rfl, floatSizing_top hA, realSizing_top]
  rw [hyb_maxsz h1 h2 hi]
  have hM : m < 2 ^ 52 := lt_of_lt_of_le h2 (by norm_num)
  have h := fhyb_all m h2 h1 i (by omega)
  simp only [fhybOk, Bool.or_eq_true, decide_eq_true_eq, Bool.and_eq_true, List.any_eq_true] at h
  rcases h with ⟨a1, a2, a3, a4, a5⟩ | ⟨a1, p, _, a2, a3⟩
  · exact fmaxsz_eq hA h1 hM (by omega) a1 a1 a2 a3 a4 a5
  · exact fmaxsz_exact hA h1 hM (by omega) a1 a2 a3

/-! ## The rebuild test -/

theorem one_add_le_logb {x : ℝ} (h0 : 0 ≤ x) (h1 : x ≤ 1) : x ≤ Real.logb 2 (1 + x) := by
  rw [Real.le_logb_iff_rpow_le (by norm_num) (by linarith)]
  have := rpow_one_add_le_one_add_mul_self (s := 1) (by norm_num) h0 h1
  norm_num at this
  linarith

/-- A relative perturbation of at most `2^-40` changes `log2` by at most `2 * 2^-40`. -/
theorem logb_perturb {L L' : ℝ} (hL : 0 < L) (h1 : L * (1 - feps) ≤ L') (h2 : L' ≤ L * (1 + feps)) :
    Real.logb 2 L - 2 * feps ≤ Real.logb 2 L' ∧ Real.logb 2 L' ≤ Real.logb 2 L + 2 * feps := by
  have e := feps_pos
  have e' := feps_le
  have hl2 : (0.69 : ℝ) < Real.log 2 := by have := Real.log_two_gt_d9; linarith
  have hlo : 0 < 1 - feps := by linarith
  have hL' : 0 < L' := lt_of_lt_of_le (mul_pos hL hlo) h1
  constructor
  · have s1 : Real.logb 2 (L * (1 - feps)) ≤ Real.logb 2 L' :=
      Real.logb_le_logb_of_le (by norm_num) (mul_pos hL hlo) h1
    rw [Real.logb_mul hL.ne' hlo.ne'] at s1
    have s2 : -(2 * feps) ≤ Real.logb 2 (1 - feps) := by
      unfold Real.logb
      rw [le_div_iff₀ (by linarith)]
      have s3 := Real.one_sub_inv_le_log_of_pos hlo
      have s4 : (1 - feps)⁻¹ ≤ 1 + 1.1 * feps := by
        rw [inv_le_comm₀ hlo (by linarith), inv_le_iff_one_le_mul₀ (by linarith)]
        nlinarith
      nlinarith
    linarith
  · have s1 : Real.logb 2 L' ≤ Real.logb 2 (L * (1 + feps)) :=
      Real.logb_le_logb_of_le (by norm_num) hL' h2
    rw [Real.logb_mul hL.ne' (by linarith)] at s1
    have s2 : Real.logb 2 (1 + feps) ≤ 2 * feps := by
      unfold Real.logb
      rw [div_le_iff₀ (by linarith)]
      have s3 := Real.log_le_sub_one_of_pos (x := 1 + feps) (by linarith)
      nlinarith
    linarith

section
variable {A : FloatLib} (hA : A.Accurate) {n : ℕ} (hn : 3 ≤ n) (hM : n < 2 ^ 52)
include hA hn hM

omit hA hM in
theorem logb_three : 3 / 2 ≤ Real.logb 2 n := by
  have := logb_ge (m := n) (a := 3) (b := 2) (by omega) (by norm_num) (by nlinarith)
  simpa using this

omit hA hM in
theorem loglog_three : 1 / 2 ≤ Real.logb 2 (Real.logb 2 n) := by
  have h := logb_three hn
  rw [Real.le_logb_iff_rpow_le (by norm_num) (by linarith)]
  refine le_trans ?_ h
  have s : ((2 : ℝ) ^ (1 / 2 : ℝ)) ^ 2 ≤ (3 / 2 : ℝ) ^ 2 := by
    rw [← Real.rpow_natCast, ← Real.rpow_mul (by norm_num)]; norm_num
  exact le_of_pow_le_pow_left₀ (by norm_num) (by norm_num) s

/-- `TAU(n)` against the exact value. -/
theorem ftau : Real.logb 2 (Real.logb 2 n) * (1 - 6 * feps) ≤ A.log2 (A.log2 n) ∧
    A.log2 (A.log2 n) ≤ Real.logb 2 (Real.logb 2 n) * (1 + 6 * feps) ∧ A.log2 (A.log2 n) ≤ 59 / 10 := by
  have h3 := logb_three hn
  have h4 := loglog_three hn
  have h52 := logb_le_52 (by omega) hM
  have h := flog2 hA (by omega) hM
  have e := feps_pos
  have e' := feps_le
  obtain ⟨p1, p2⟩ := logb_perturb (by linarith) h.lo h.hi
  have hh := h.hi
  have hl := h.lo
  generalize Real.logb 2 n = L at *
  generalize A.log2 n = L' at *
  have hL1 : 1 ≤ L' := by nlinarith
  have hL2 : L' ≤ 53 := by nlinarith
  have h2 := hA.log2 L' hL1 (by nlinarith)
  have b1 := h2.lo
  have b2 := h2.hi
  have c1 : Real.logb 2 L' ≤ 29 / 5 := by
    rw [Real.logb_le_iff_le_rpow (by norm_num) (by linarith)]
    have s : (53 : ℝ) ^ 5 ≤ ((2 : ℝ) ^ (29 / 5 : ℝ)) ^ 5 := by
      rw [← Real.rpow_natCast ((2 : ℝ) ^ (29 / 5 : ℝ)), ← Real.rpow_mul (by norm_num),
        show (29 / 5 : ℝ) * ((5 : ℕ) : ℝ) = ((29 : ℕ) : ℝ) by norm_num, Real.rpow_natCast]
      norm_num
    exact le_trans hL2 (le_of_pow_le_pow_left₀ (by norm_num) (by positivity) s)
  generalize Real.logb 2 L = T at *
  generalize Real.logb 2 L' = T' at *
  refine ⟨le_trans ?_ b1, le_trans b2 ?_, ?_⟩
  · nlinarith
  · nlinarith
  · nlinarith

/-- The right-hand side of the rebuild test against the exact quotient. -/
theorem fthr : n / Real.logb 2 (Real.logb 2 n) * (1 - 8 * feps) ≤ A.div n (A.log2 (A.log2 n)) ∧
    A.div n (A.log2 (A.log2 n)) ≤ n / Real.logb 2 (Real.logb 2 n) * (1 + 8 * feps) ∧
    n / (59 / 10) * (1 - feps) ≤ A.div n (A.log2 (A.log2 n)) := by
  have h4 := loglog_three hn
  obtain ⟨t1, t2, t3⟩ := ftau hA hn hM
  have e := feps_pos
  have e' := feps_le
  have hn0 : (1 : ℝ) ≤ n := by exact_mod_cast (by omega : 1 ≤ n)
  have hn1 : (n : ℝ) ≤ 2 ^ 53 := by exact_mod_cast (by omega : n ≤ 2 ^ 53)
  generalize A.log2 (A.log2 n) = T' at *
  generalize Real.logb 2 (Real.logb 2 n) = T at *
  have hT' : 1 / 4 ≤ T' := by nlinarith
  have hd := hA.div n T' hn0 hn1 hT' (by linarith)
  have b1 := hd.lo
  have b2 := hd.hi
  generalize (n : ℝ) = N at *
  have hN : 0 < N := by linarith
  have hT : 0 < T := by linarith
  have hT0 : 0 < T' := by linarith
  have hee : feps * feps ≤ feps * (1 / 1000) := mul_le_mul_of_nonneg_left (by linarith) e.le
  refine ⟨le_trans ?_ b1, le_trans b2 ?_, le_trans ?_ b1⟩
  · rw [div_mul_eq_mul_div, div_mul_eq_mul_div, div_le_div_iff₀ hT hT0]
    have s1 : N * (1 - 8 * feps) * T' ≤ N * (1 - 8 * feps) * (T * (1 + 6 * feps)) := by
      apply mul_le_mul_of_nonneg_left t2
      apply mul_nonneg hN.le; linarith
    have s2 : (1 - 8 * feps) * (1 + 6 * feps) ≤ 1 - feps := by nlinarith
    calc N * (1 - 8 * feps) * T' ≤ N * (1 - 8 * feps) * (T * (1 + 6 * feps)) := s1
      _ = N * T * ((1 - 8 * feps) * (1 + 6 * feps)) := by ring
      _ ≤ N * T * (1 - feps) := mul_le_mul_of_nonneg_left s2 (by positivity)
      _ = N * (1 - feps) * T := by ring
  · rw [div_mul_eq_mul_div, div_mul_eq_mul_div, div_le_div_iff₀ hT0 hT]
    have s1 : N * (1 + 8 * feps) * (T * (1 - 6 * feps)) ≤ N * (1 + 8 * feps) * T' := by
      apply mul_le_mul_of_nonneg_left t1
      apply mul_nonneg hN.le; linarith
    have s2 : 1 + feps ≤ (1 + 8 * feps) * (1 - 6 * feps) := by nlinarith
    calc N * (1 + feps) * T = N * T * (1 + feps) := by ring
      _ ≤ N * T * ((1 + 8 * feps) * (1 - 6 * feps)) := mul_le_mul_of_nonneg_left s2 (by positivity)
      _ = N * (1 + 8 * feps) * (T * (1 - 6 * feps)) := by ring
      _ ≤ N * (1 + 8 * feps) * T' := s1
  · apply mul_le_mul_of_nonneg_right _ (by linarith)
    exact div_le_div_of_nonneg_left hN.le hT0 t3

end

theorem floatSizing_rebuild (A : FloatLib) {n : ℕ} (k : ℕ) (hn : 3 ≤ n) (hM : n < 2 ^ 52) :
    (floatSizing A).rebuild k n = @decide (A.div n (A.log2 (A.log2 n)) < (k : ℝ)) (Classical.propDecidable _) := by
  show (if n = 0 then _ else if n = 1 then _ else if n = 2 then _ else if n < 2 ^ 52 then _ else _) = _
  rw [if_neg (by omega), if_neg (by omega), if_neg (by omega), if_pos hM]

theorem frebuild_of {A : FloatLib} {n t : ℕ} (hn : 3 ≤ n) (hM : n < 2 ^ 52)
    (h1 : (t : ℝ) ≤ A.div n (A.log2 (A.log2 n))) (h2 : A.div n (A.log2 (A.log2 n)) < t + 1) (k : ℕ) :
    (floatSizing A).rebuild k n = decide (t < k) := by
  rw [floatSizing_rebuild A k hn hM]
  have key : (A.div n (A.log2 (A.log2 n)) < (k : ℝ)) ↔ t < k := by
    constructor
    · intro h
      have : (t : ℝ) < k := lt_of_le_of_lt h1 h
      exact_mod_cast this
    · intro h
      have : ((t + 1 : ℕ) : ℝ) ≤ k := by exact_mod_cast h
      push_cast at this
      linarith
  by_cases hk : t < k
  · simp [hk, key.2 hk]
  · have : ¬ (A.div n (A.log2 (A.log2 n)) < (k : ℝ)) := fun h => hk (key.1 h)
    simp [hk, this]

/-- Evaluation of the rebuild threshold from rational bounds `a/b ≤ log2 n ≤ c/d` with some slack. -/
theorem frebuild_eq {A : FloatLib} (hA : A.Accurate) {n t a b c d : ℕ} (hn : 3 ≤ n) (hM : n < 1000) (hb : 0 < b)
    (hd : 0 < d) (h1 : 2 ^ a ≤ n ^ b) (h2 : n ^ d ≤ 2 ^ c)
    (h3 : c ^ t * 1000001 ≤ 2 ^ n * d ^ t * 1000000) (h4 : 2 ^ n * b ^ (t + 1) * 1000001 < a ^ (t + 1) * 1000000) (k : ℕ) :
    (floatSizing A).rebuild k n = decide (t < k) := by
  have hM' : n < 2 ^ 52 := lt_trans hM (by norm_num)
  have l1 := logb_ge (by omega) hb h1
  have l2 := logb_le (by omega) hd h2
  have l3 := logb_three hn
  have l4 := loglog_three hn
  obtain ⟨f1, f2, _⟩ := fthr hA hn hM'
  have e := feps_pos
  have e' := feps_le
  generalize Real.logb 2 n = L at *
  have hb' : (0 : ℝ) < b := by exact_mod_cast hb
  have hd' : (0 : ℝ) < d := by exact_mod_cast hd
  have hL : 0 < L := by linarith
  have hn0 : (0 : ℝ) < n := by exact_mod_cast (by omega : 0 < n)
  have hn1 : (n : ℝ) < 1000 := by exact_mod_cast hM
  have hs := one_add_le_logb (x := 1 / 1000000) (by norm_num) (by norm_num)
  have hsl : ((1 : ℝ) + 1 / 1000000) = 1000001 / 1000000 := by norm_num
  rw [hsl] at hs
  have k1 : (t : ℝ) * Real.logb 2 L + 1 / 1000000 ≤ n := by
    refine le_trans (add_le_add_right hs _) ?_
    rw [← Real.logb_pow, ← Real.logb_mul (by positivity) (by norm_num),
      Real.logb_le_iff_le_rpow (by norm_num) (by positivity), Real.rpow_natCast]
    have h3' : (c : ℝ) ^ t * 1000001 ≤ 2 ^ n * (d : ℝ) ^ t * 1000000 := by exact_mod_cast h3
    calc L ^ t * (1000001 / 1000000) ≤ ((c : ℝ) / d) ^ t * (1000001 / 1000000) := by gcongr
      _ = ((c : ℝ) ^ t * (1000001 / 1000000)) / (d : ℝ) ^ t := by rw [div_pow]; ring
      _ ≤ 2 ^ n := by rw [div_le_iff₀ (by positivity)]; linarith
  have k2 : (n : ℝ) + 1 / 1000000 < ((t + 1 : ℕ) : ℝ) * Real.logb 2 L := by
    have hne : ((n : ℝ) + 1 / 1000000) ≤ (n : ℝ) + Real.logb 2 (1000001 / 1000000) := by linarith
    refine lt_of_le_of_lt hne ?_
    rw [← Real.logb_pow]
    have hnn : (n : ℝ) = Real.logb 2 ((2 : ℝ) ^ n) := by
      rw [← Real.rpow_natCast, Real.logb_rpow (by norm_num) (by norm_num)]
    rw [hnn, ← Real.logb_mul (by positivity) (by norm_num)]
    apply Real.logb_lt_logb (by norm_num) (by positivity)
    have h4' : (2 : ℝ) ^ n * (b : ℝ) ^ (t + 1) * 1000001 < (a : ℝ) ^ (t + 1) * 1000000 := by exact_mod_cast h4
    calc (2 : ℝ) ^ n * (1000001 / 1000000) < (a : ℝ) ^ (t + 1) / (b : ℝ) ^ (t + 1) := by
          rw [lt_div_iff₀ (by positivity)]; linarith
      _ = ((a : ℝ) / b) ^ (t + 1) := (div_pow _ _ _).symm
      _ ≤ L ^ (t + 1) := by gcongr
  push_cast at k2
  generalize Real.logb 2 L = T at *
  have hT : 0 < T := by linarith
  refine frebuild_of hn hM' (le_trans ?_ f1) (lt_of_le_of_lt f2 ?_) k
  · rw [div_mul_eq_mul_div, le_div_iff₀ hT]
    nlinarith
  · rw [div_mul_eq_mul_div, div_lt_iff₀ hT]
    nlinarith

/-- Evaluation of the rebuild threshold when every intermediate result is an integer: `n = 2^(2^j)`, `n = t*j`. -/
theorem frebuild_exact {A : FloatLib} (hA : A.Accurate) {n t j : ℕ} (hn : 3 ≤ n) (hM : n < 2 ^ 52) (hj : 1 ≤ j)
    (h1 : n = 2 ^ (2 ^ j)) (h2 : t * j = n) (k : ℕ) : (floatSizing A).rebuild k n = decide (t < k) := by
  have hl : Real.logb 2 n = ((2 ^ j : ℕ) : ℝ) := by
    rw [h1, Nat.cast_pow, ← Real.rpow_natCast, Nat.cast_ofNat, Real.logb_rpow (by norm_num) (by norm_num)]
  have hlog : A.log2 n = ((2 ^ j : ℕ) : ℝ) := (flog2 hA (by omega) hM).2 _ hl
  have h52 := logb_le_52 (by omega) hM
  have h3 := logb_three hn
  rw [hl] at h52 h3
  have hll : Real.logb 2 ((2 ^ j : ℕ) : ℝ) = j := by
    rw [Nat.cast_pow, ← Real.rpow_natCast, Nat.cast_ofNat, Real.logb_rpow (by norm_num) (by norm_num)]
  have htau : A.log2 (A.log2 n) = j := by
    rw [hlog]
    exact (hA.log2 _ (by linarith) (by linarith)).2 j hll
  have hj' : (1 : ℝ) ≤ j := by exact_mod_cast hj
  obtain ⟨_, _, t3⟩ := ftau hA hn hM
  rw [htau] at t3
  have hn0 : (1 : ℝ) ≤ n := by exact_mod_cast (by omega : 1 ≤ n)
  have hn1 : (n : ℝ) ≤ 2 ^ 53 := by exact_mod_cast (by omega : n ≤ 2 ^ 53)
  have hdiv : A.div n (A.log2 (A.log2 n)) = t := by
    rw [htau]
    refine (hA.div n j hn0 hn1 (by linarith) (by linarith)).2 t ?_
    rw [div_eq_iff (by linarith)]
    exact_mod_cast h2.symm
  exact frebuild_of hn hM (by rw [hdiv]) (by rw [hdiv]; linarith) k

/-- The numeric facts behind one entry of `hybThr`, with slack or exactly. -/
def fhybThrOk (n : Nat) : Bool :=
  let t := hybThr n
  let l := hybLog n
  decide (0 < l.2.1 ∧ 2 ^ l.1 ≤ n ^ l.2.1 ∧ n ^ l.2.1 ≤ 2 ^ l.2.2 ∧
    l.2.2 ^ t * 1000001 ≤ 2 ^ n * l.2.1 ^ t * 1000000 ∧ 2 ^ n * l.2.1 ^ (t + 1) * 1000001 < l.1 ^ (t + 1) * 1000000) ||
  (List.range 3).any (fun j => decide (1 ≤ j ∧ n = 2 ^ 2 ^ j ∧ t * j = n))

theorem fhybThr_all : ∀ n, n < 36 → 3 ≤ n → fhybThrOk n = true := by decide +kernel

/-- Below 36 edges every accurate library decides the rebuild test exactly. -/
theorem fhyb_rebuild {A : FloatLib} (hA : A.Accurate) {n : Nat} (h2 : n < 36) (k : Nat) :
    (floatSizing A).rebuild k n = realSizing.rebuild k n := by
  by_cases h1 : 3 ≤ n
  · rw [hyb_rebuild h1 h2]
    have hM : n < 2 ^ 52 := lt_of_lt_of_le h2 (by norm_num)
    have h := fhybThr_all n h2 h1
    simp only [fhybThrOk, Bool.or_eq_true, decide_eq_true_eq, List.any_eq_true] at h
    rcases h with ⟨a1, a2, a3, a4, a5⟩ | ⟨j, _, a1, a2, a3⟩
    · exact frebuild_eq hA h1 (by omega) a1 a1 a2 a3 a4 a5 k
    · exact frebuild_exact hA h1 hM a1 a2 a3 k
  · have : n = 0 ∨ n = 1 ∨ n = 2 := by omega
    rcases this with rfl | rfl | rfl <;> rfl

end DK2
