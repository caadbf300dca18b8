import Verif.Sizing
import Mathlib.Analysis.SpecialFunctions.Log.Base
import Mathlib.Analysis.SpecialFunctions.Log.Monotone
import Mathlib.Analysis.SpecialFunctions.Pow.Real
import Mathlib.Analysis.Complex.ExponentialBounds
/-!
# The threshold formulas of `utils.hpp`, read over the real numbers
-/

namespace DK2

/-- `MAXSZ` and the rebuild test of `utils.hpp:6-9` / DKtree.hpp:207 with exact real arithmetic.
Simplified: the code evaluates both with `double`; the theorems that use this instance only need the
facts proved in this file.  IEEE special cases: `n = 0` gives NaN (test false), `n = 1` gives `-0.0`
(test `marked > 0`), `n = 2` gives `+inf` (test false). -/
noncomputable def realSizing : Sizing where
  maxsz m i := ⌊(2 * m : ℝ) / (Real.logb 2 m) ^ (2 - (i : ℝ) * (1 / 4))⌋₊
  rebuild k n :=
    if n = 0 then false
    else if n = 1 then decide (0 < k)
    else if n = 2 then false
    else @decide ((n : ℝ) / Real.logb 2 (Real.logb 2 n) < (k : ℝ)) (Classical.propDecidable _)

/-- The only facts about the thresholds that the correctness of insertions needs: the top level can
hold `2m` edges (utils.hpp:8 with `i = 8`: `pow(log2 m, 0) = 1`, exact also in `double`). -/
def Sizing.Top (S : Sizing) : Prop := ∀ m, S.maxsz m RS = 2 * m

theorem realSizing_top : realSizing.Top := by
  intro m
  have : (2 : ℝ) - ((8 : ℕ) : ℝ) * (1 / 4) = 0 := by norm_num
  show ⌊(2 * m : ℝ) / (Real.logb 2 m) ^ (2 - ((8 : ℕ) : ℝ) * (1 / 4))⌋₊ = 2 * m
  rw [this, Real.rpow_zero, div_one]
  have h : (2 * (m : ℝ)) = ((2 * m : ℕ) : ℝ) := by push_cast; rfl
  rw [h, Nat.floor_natCast]

theorem logb_pos {m : ℕ} (hm : 2 ≤ m) : 1 ≤ Real.logb 2 m := by
  have h2 : (2 : ℝ) ≤ m := by exact_mod_cast hm
  rw [Real.le_logb_iff_rpow_le (by norm_num) (by linarith)]
  simpa using h2

/-- Lower rational bound on `log2 m`. -/
theorem logb_ge {m a b : ℕ} (hm : 2 ≤ m) (hb : 0 < b) (h : 2 ^ a ≤ m ^ b) :
    (a : ℝ) / b ≤ Real.logb 2 m := by
  have hm' : (0 : ℝ) < m := by exact_mod_cast (by omega : 0 < m)
  have hb' : (0 : ℝ) < b := by exact_mod_cast hb
  rw [div_le_iff₀ hb', mul_comm, ← Real.logb_pow, Real.le_logb_iff_rpow_le (by norm_num) (by positivity),
    Real.rpow_natCast]
  exact_mod_cast h

/-- Upper rational bound on `log2 m`. -/
theorem logb_le {m c d : ℕ} (hm : 2 ≤ m) (hd : 0 < d) (h : m ^ d ≤ 2 ^ c) :
    Real.logb 2 m ≤ (c : ℝ) / d := by
  have hm' : (0 : ℝ) < m := by exact_mod_cast (by omega : 0 < m)
  have hd' : (0 : ℝ) < d := by exact_mod_cast hd
  rw [le_div_iff₀ hd', mul_comm, ← Real.logb_pow, Real.logb_le_iff_le_rpow (by norm_num) (by positivity),
    Real.rpow_natCast]
  exact_mod_cast h

theorem rpow_level {L : ℝ} (hL : 0 < L) {i : ℕ} (hi : i ≤ 8) :
    (L ^ (2 - (i : ℝ) * (1 / 4))) ^ 4 = L ^ (8 - i) := by
  rw [← Real.rpow_natCast, ← Real.rpow_mul hL.le, ← Real.rpow_natCast]
  congr 1
  push_cast [Nat.cast_sub hi]
  ring

/-- Exact evaluation of `MAXSZ(m,i)` from rational bounds `a/b ≤ log2 m ≤ c/d`. -/
theorem maxsz_eq {m i v a b c d : ℕ} (hm : 2 ≤ m) (hi : i ≤ 8) (hb : 0 < b) (hd : 0 < d)
    (h1 : 2 ^ a ≤ m ^ b) (h2 : m ^ d ≤ 2 ^ c)
    (h3 : v ^ 4 * c ^ (8 - i) ≤ (2 * m) ^ 4 * d ^ (8 - i))
    (h4 : (2 * m) ^ 4 * b ^ (8 - i) < (v + 1) ^ 4 * a ^ (8 - i)) :
    realSizing.maxsz m i = v := by
  have l1 := logb_ge hm hb h1
  have l2 := logb_le hm hd h2
  have l0 := logb_pos hm
  show ⌊(2 * m : ℝ) / (Real.logb 2 m) ^ (2 - (i : ℝ) * (1 / 4))⌋₊ = v
  generalize Real.logb 2 m = L at *
  have hL : 0 < L := by linarith
  have hb' : (0 : ℝ) < b := by exact_mod_cast hb
  have hd' : (0 : ℝ) < d := by exact_mod_cast hd
  have hp : 0 < L ^ (2 - (i : ℝ) * (1 / 4)) := Real.rpow_pos_of_pos hL _
  have hp4 := rpow_level hL hi
  generalize L ^ (2 - (i : ℝ) * (1 / 4)) = P at *
  rw [Nat.floor_eq_iff (by positivity), le_div_iff₀ hp, div_lt_iff₀ hp]
  constructor
  · have h3' : ((v : ℝ) ^ 4 * (c : ℝ) ^ (8 - i)) ≤ (2 * m) ^ 4 * (d : ℝ) ^ (8 - i) := by exact_mod_cast h3
    have hLc : L ^ (8 - i) ≤ (c : ℝ) ^ (8 - i) / (d : ℝ) ^ (8 - i) := by
      rw [← div_pow]; exact pow_le_pow_left₀ hL.le l2 _
    have : ((v : ℝ) * P) ^ 4 ≤ (2 * m) ^ 4 := by
      rw [mul_pow, hp4]
      calc (v : ℝ) ^ 4 * L ^ (8 - i) ≤ (v : ℝ) ^ 4 * ((c : ℝ) ^ (8 - i) / (d : ℝ) ^ (8 - i)) := by gcongr
        _ = ((v : ℝ) ^ 4 * (c : ℝ) ^ (8 - i)) / (d : ℝ) ^ (8 - i) := by ring
        _ ≤ (2 * m) ^ 4 := by rw [div_le_iff₀ (by positivity)]; exact h3'
    exact le_of_pow_le_pow_left₀ (by norm_num) (by positivity) this
  · have h4' : ((2 * m : ℝ) ^ 4 * (b : ℝ) ^ (8 - i)) < ((v : ℝ) + 1) ^ 4 * (a : ℝ) ^ (8 - i) := by
      exact_mod_cast h4
    have hLa : (a : ℝ) ^ (8 - i) / (b : ℝ) ^ (8 - i) ≤ L ^ (8 - i) := by
      rw [← div_pow]; exact pow_le_pow_left₀ (by positivity) l1 _
    have : (2 * m : ℝ) ^ 4 < (((v : ℝ) + 1) * P) ^ 4 := by
      rw [mul_pow _ P, hp4]
      calc (2 * m : ℝ) ^ 4 < (((v : ℝ) + 1) ^ 4 * (a : ℝ) ^ (8 - i)) / (b : ℝ) ^ (8 - i) := by
            rw [lt_div_iff₀ (by positivity)]; exact h4'
        _ = ((v : ℝ) + 1) ^ 4 * ((a : ℝ) ^ (8 - i) / (b : ℝ) ^ (8 - i)) := by ring
        _ ≤ ((v : ℝ) + 1) ^ 4 * L ^ (8 - i) := by gcongr
    exact lt_of_pow_lt_pow_left₀ 4 (by positivity) this

/-- Exact evaluation of the rebuild threshold from rational bounds `a/b ≤ log2 n ≤ c/d`. -/
theorem rebuild_eq {n t a b c d : ℕ} (hn : 3 ≤ n) (hb : 0 < b) (hd : 0 < d)
    (h1 : 2 ^ a ≤ n ^ b) (h2 : n ^ d ≤ 2 ^ c) (hab : b < a)
    (h3 : c ^ t ≤ 2 ^ n * d ^ t) (h4 : 2 ^ n * b ^ (t + 1) < a ^ (t + 1)) (k : ℕ) :
    realSizing.rebuild k n = decide (t < k) := by
  have l1 := logb_ge (by omega) hb h1
  have l2 := logb_le (by omega) hd h2
  show (if n = 0 then false else if n = 1 then decide (0 < k) else if n = 2 then false
    else @decide ((n : ℝ) / Real.logb 2 (Real.logb 2 n) < (k : ℝ)) (Classical.propDecidable _)) = _
  rw [if_neg (by omega), if_neg (by omega), if_neg (by omega)]
  generalize Real.logb 2 n = L at *
  have hb' : (0 : ℝ) < b := by exact_mod_cast hb
  have hd' : (0 : ℝ) < d := by exact_mod_cast hd
  have hL1 : 1 < L := by
    refine lt_of_lt_of_le ?_ l1
    rw [lt_div_iff₀ hb']; simpa using (by exact_mod_cast hab : (b : ℝ) < a)
  have hL : 0 < L := by linarith
  have hLL : 0 < Real.logb 2 L := Real.logb_pos (by norm_num) hL1
  have k1 : (t : ℝ) * Real.logb 2 L ≤ n := by
    rw [← Real.logb_pow, Real.logb_le_iff_le_rpow (by norm_num) (by positivity), Real.rpow_natCast]
    calc L ^ t ≤ ((c : ℝ) / d) ^ t := pow_le_pow_left₀ hL.le l2 _
      _ = (c : ℝ) ^ t / (d : ℝ) ^ t := div_pow _ _ _
      _ ≤ 2 ^ n := by rw [div_le_iff₀ (by positivity)]; exact_mod_cast h3
  have k2 : (n : ℝ) < ((t + 1 : ℕ) : ℝ) * Real.logb 2 L := by
    rw [← Real.logb_pow, Real.lt_logb_iff_rpow_lt (by norm_num) (by positivity), Real.rpow_natCast]
    calc (2 : ℝ) ^ n < (a : ℝ) ^ (t + 1) / (b : ℝ) ^ (t + 1) := by
          rw [lt_div_iff₀ (by positivity)]; exact_mod_cast h4
      _ = ((a : ℝ) / b) ^ (t + 1) := (div_pow _ _ _).symm
      _ ≤ L ^ (t + 1) := pow_le_pow_left₀ (by positivity) l1 _
  have key : ((n : ℝ) / Real.logb 2 L < (k : ℝ)) ↔ t < k := by
    rw [div_lt_iff₀ hLL]
    constructor
    · intro h
      by_contra hlt
      have : (k : ℝ) ≤ t := by exact_mod_cast (by omega : k ≤ t)
      have := mul_le_mul_of_nonneg_right this hLL.le
      linarith
    · intro h
      have : ((t + 1 : ℕ) : ℝ) ≤ k := by exact_mod_cast h
      have := mul_le_mul_of_nonneg_right this hLL.le
      linarith
  by_cases hk : t < k
  · simp [hk, key.2 hk]
  · have : ¬ ((n : ℝ) / Real.logb 2 L < (k : ℝ)) := fun h => hk (key.1 h)
    simp [hk, this]

/-- `MAXSZ(m, i)` as a table for `2 ≤ m ≤ 17`; no claim is made outside. -/
def tabMax : Nat → List Nat
  | 2 => [4, 4, 4, 4, 4, 4, 4, 4, 4]
  | 3 => [2, 2, 3, 3, 3, 4, 4, 5, 6]
  | 4 => [2, 2, 2, 3, 4, 4, 5, 6, 8]
  | 5 => [1, 2, 2, 3, 4, 5, 6, 8, 10]
  | 6 => [1, 2, 2, 3, 4, 5, 7, 9, 12]
  | 7 => [1, 2, 2, 3, 4, 6, 8, 10, 14]
  | 8 => [1, 2, 3, 4, 5, 7, 9, 12, 16]
  | 9 => [1, 2, 3, 4, 5, 7, 10, 13, 18]
  | 10 => [1, 2, 3, 4, 6, 8, 10, 14, 20]
  | 11 => [1, 2, 3, 4, 6, 8, 11, 16, 22]
  | 12 => [1, 2, 3, 4, 6, 9, 12, 17, 24]
  | 13 => [1, 2, 3, 5, 7, 9, 13, 18, 26]
  | 14 => [1, 2, 3, 5, 7, 10, 14, 20, 28]
  | 15 => [1, 2, 3, 5, 7, 10, 15, 21, 30]
  | 16 => [2, 2, 4, 5, 8, 11, 16, 22, 32]
  | 17 => [2, 2, 4, 5, 8, 11, 16, 23, 34]
  | _ => []

/-- The rebuild threshold `⌊n / TAU(n)⌋` as a table for `3 ≤ n ≤ 17`. -/
def tabThr : Nat → Nat
  | 3 => 4
  | 4 => 4
  | 5 => 4
  | 6 => 4
  | 7 => 4
  | 8 => 5
  | 9 => 5
  | 10 => 5
  | 11 => 6
  | 12 => 6
  | 13 => 6
  | 14 => 7
  | 15 => 7
  | 16 => 8
  | 17 => 8
  | _ => 0

/-- A computable sizing that agrees with `realSizing` for `2 ≤ m ≤ 17` (used for witnesses only). -/
def tabSizing : Sizing where
  maxsz m i := ((tabMax m)[i]?).getD (2 * m)
  rebuild k n :=
    if n = 0 then false else if n = 1 then decide (0 < k) else if n = 2 then false
    else decide (tabThr n < k)

theorem tab_maxsz {m i : Nat} (h1 : 2 ≤ m) (h2 : m ≤ 17) (hi : i ≤ 8) :
    tabSizing.maxsz m i = realSizing.maxsz m i := by
  symm
  have hm : m = 2 ∨ m = 3 ∨ m = 4 ∨ m = 5 ∨ m = 6 ∨ m = 7 ∨ m = 8 ∨ m = 9 ∨ m = 10 ∨ m = 11 ∨ m = 12 ∨ m = 13 ∨ m = 14 ∨ m = 15 ∨ m = 16 ∨ m = 17 := by omega
  have hi' : i = 0 ∨ i = 1 ∨ i = 2 ∨ i = 3 ∨ i = 4 ∨ i = 5 ∨ i = 6 ∨ i = 7 ∨ i = 8 := by omega
  rcases hm with rfl | rfl | rfl | rfl | rfl | rfl | rfl | rfl | rfl | rfl | rfl | rfl | rfl | rfl | rfl | rfl <;>
    rcases hi' with rfl | rfl | rfl | rfl | rfl | rfl | rfl | rfl | rfl
  · exact maxsz_eq (v := 4) (a := 1) (b := 1) (c := 1) (d := 1) (by norm_num) (by norm_num)
      (by norm_num) (by norm_num) (by norm_num) (by norm_num) (by norm_num) (by norm_num)
  · exact maxsz_eq (v := 4) (a := 1) (b := 1) (c := 1) (d := 1) (by norm_num) (by norm_num)
      (by norm_num) (by norm_num) (by norm_num) (by norm_num) (by norm_num) (by norm_num)
  · exact maxsz_eq (v := 4) (a := 1) (b := 1) (c := 1) (d := 1) (by norm_num) (by norm_num)
      (by norm_num) (by norm_num) (by norm_num) (by norm_num) (by norm_num) (by norm_num)
  · exact maxsz_eq (v := 4) (a := 1) (b := 1) (c := 1) (d := 1) (by norm_num) (by norm_num)
      (by norm_num) (by norm_num) (by norm_num) (by norm_num) (by norm_num) (by norm_num)
  · exact maxsz_eq (v := 4) (a := 1) (b := 1) (c := 1) (d := 1) (by norm_num) (by norm_num)
      (by norm_num) (by norm_num) (by norm_num) (by norm_num) (by norm_num) (by norm_num)
  · exact maxsz_eq (v := 4) (a := 1) (b := 1) (c := 1) (d := 1) (by norm_num) (by norm_num)
      (by norm_num) (by norm_num) (by norm_num) (by norm_num) (by norm_num) (by norm_num)
  · exact maxsz_eq (v := 4) (a := 1) (b := 1) (c := 1) (d := 1) (by norm_num) (by norm_num)
      (by norm_num) (by norm_num) (by norm_num) (by norm_num) (by norm_num) (by norm_num)
  · exact maxsz_eq (v := 4) (a := 1) (b := 1) (c := 1) (d := 1) (by norm_num) (by norm_num)
      (by norm_num) (by norm_num) (by norm_num) (by norm_num) (by norm_num) (by norm_num)
  · exact maxsz_eq (v := 4) (a := 1) (b := 1) (c := 1) (d := 1) (by norm_num) (by norm_num)
      (by norm_num) (by norm_num) (by norm_num) (by norm_num) (by norm_num) (by norm_num)
  · exact maxsz_eq (v := 2) (a := 3) (b := 2) (c := 5) (d := 3) (by norm_num) (by norm_num)
      (by norm_num) (by norm_num) (by norm_num) (by norm_num) (by norm_num) (by norm_num)
  · exact maxsz_eq (v := 2) (a := 3) (b := 2) (c := 5) (d := 3) (by norm_num) (by norm_num)
      (by norm_num) (by norm_num) (by norm_num) (by norm_num) (by norm_num) (by norm_num)
  · exact maxsz_eq (v := 3) (a := 3) (b := 2) (c := 46) (d := 29) (by norm_num) (by norm_num)
      (by norm_num) (by norm_num) (by norm_num) (by norm_num) (by norm_num) (by norm_num)
  · exact maxsz_eq (v := 3) (a := 3) (b := 2) (c := 5) (d := 3) (by norm_num) (by norm_num)
      (by norm_num) (by norm_num) (by norm_num) (by norm_num) (by norm_num) (by norm_num)
  · exact maxsz_eq (v := 3) (a := 11) (b := 7) (c := 2) (d := 1) (by norm_num) (by norm_num)
      (by norm_num) (by norm_num) (by norm_num) (by norm_num) (by norm_num) (by norm_num)
  · exact maxsz_eq (v := 4) (a := 3) (b := 2) (c := 5) (d := 3) (by norm_num) (by norm_num)
      (by norm_num) (by norm_num) (by norm_num) (by norm_num) (by norm_num) (by norm_num)
  · exact maxsz_eq (v := 4) (a := 3) (b := 2) (c := 2) (d := 1) (by norm_num) (by norm_num)
      (by norm_num) (by norm_num) (by norm_num) (by norm_num) (by norm_num) (by norm_num)
  · exact maxsz_eq (v := 5) (a := 3) (b := 2) (c := 2) (d := 1) (by norm_num) (by norm_num)
      (by norm_num) (by norm_num) (by norm_num) (by norm_num) (by norm_num) (by norm_num)
  · exact maxsz_eq (v := 6) (a := 1) (b := 1) (c := 2) (d := 1) (by norm_num) (by norm_num)
      (by norm_num) (by norm_num) (by norm_num) (by norm_num) (by norm_num) (by norm_num)
  · exact maxsz_eq (v := 2) (a := 2) (b := 1) (c := 2) (d := 1) (by norm_num) (by norm_num)
      (by norm_num) (by norm_num) (by norm_num) (by norm_num) (by norm_num) (by norm_num)
  · exact maxsz_eq (v := 2) (a := 2) (b := 1) (c := 2) (d := 1) (by norm_num) (by norm_num)
      (by norm_num) (by norm_num) (by norm_num) (by norm_num) (by norm_num) (by norm_num)
  · exact maxsz_eq (v := 2) (a := 2) (b := 1) (c := 2) (d := 1) (by norm_num) (by norm_num)
      (by norm_num) (by norm_num) (by norm_num) (by norm_num) (by norm_num) (by norm_num)
  · exact maxsz_eq (v := 3) (a := 2) (b := 1) (c := 2) (d := 1) (by norm_num) (by norm_num)
      (by norm_num) (by norm_num) (by norm_num) (by norm_num) (by norm_num) (by norm_num)
  · exact maxsz_eq (v := 4) (a := 2) (b := 1) (c := 2) (d := 1) (by norm_num) (by norm_num)
      (by norm_num) (by norm_num) (by norm_num) (by norm_num) (by norm_num) (by norm_num)
  · exact maxsz_eq (v := 4) (a := 2) (b := 1) (c := 2) (d := 1) (by norm_num) (by norm_num)
      (by norm_num) (by norm_num) (by norm_num) (by norm_num) (by norm_num) (by norm_num)
  · exact maxsz_eq (v := 5) (a := 2) (b := 1) (c := 2) (d := 1) (by norm_num) (by norm_num)
      (by norm_num) (by norm_num) (by norm_num) (by norm_num) (by norm_num) (by norm_num)
  · exact maxsz_eq (v := 6) (a := 2) (b := 1) (c := 2) (d := 1) (by norm_num) (by norm_num)
      (by norm_num) (by norm_num) (by norm_num) (by norm_num) (by norm_num) (by norm_num)
  · exact maxsz_eq (v := 8) (a := 2) (b := 1) (c := 2) (d := 1) (by norm_num) (by norm_num)
      (by norm_num) (by norm_num) (by norm_num) (by norm_num) (by norm_num) (by norm_num)
  · exact maxsz_eq (v := 1) (a := 9) (b := 4) (c := 3) (d := 1) (by norm_num) (by norm_num)
      (by norm_num) (by norm_num) (by norm_num) (by norm_num) (by norm_num) (by norm_num)
  · exact maxsz_eq (v := 2) (a := 2) (b := 1) (c := 5) (d := 2) (by norm_num) (by norm_num)
      (by norm_num) (by norm_num) (by norm_num) (by norm_num) (by norm_num) (by norm_num)
  · exact maxsz_eq (v := 2) (a := 9) (b := 4) (c := 5) (d := 2) (by norm_num) (by norm_num)
      (by norm_num) (by norm_num) (by norm_num) (by norm_num) (by norm_num) (by norm_num)
  · exact maxsz_eq (v := 3) (a := 9) (b := 4) (c := 5) (d := 2) (by norm_num) (by norm_num)
      (by norm_num) (by norm_num) (by norm_num) (by norm_num) (by norm_num) (by norm_num)
  · exact maxsz_eq (v := 4) (a := 9) (b := 4) (c := 5) (d := 2) (by norm_num) (by norm_num)
      (by norm_num) (by norm_num) (by norm_num) (by norm_num) (by norm_num) (by norm_num)
  · exact maxsz_eq (v := 5) (a := 2) (b := 1) (c := 5) (d := 2) (by norm_num) (by norm_num)
      (by norm_num) (by norm_num) (by norm_num) (by norm_num) (by norm_num) (by norm_num)
  · exact maxsz_eq (v := 6) (a := 9) (b := 4) (c := 5) (d := 2) (by norm_num) (by norm_num)
      (by norm_num) (by norm_num) (by norm_num) (by norm_num) (by norm_num) (by norm_num)
  · exact maxsz_eq (v := 8) (a := 2) (b := 1) (c := 7) (d := 3) (by norm_num) (by norm_num)
      (by norm_num) (by norm_num) (by norm_num) (by norm_num) (by norm_num) (by norm_num)
  · exact maxsz_eq (v := 10) (a := 2) (b := 1) (c := 3) (d := 1) (by norm_num) (by norm_num)
      (by norm_num) (by norm_num) (by norm_num) (by norm_num) (by norm_num) (by norm_num)
  · exact maxsz_eq (v := 1) (a := 5) (b := 2) (c := 3) (d := 1) (by norm_num) (by norm_num)
      (by norm_num) (by norm_num) (by norm_num) (by norm_num) (by norm_num) (by norm_num)
  · exact maxsz_eq (v := 2) (a := 5) (b := 2) (c := 8) (d := 3) (by norm_num) (by norm_num)
      (by norm_num) (by norm_num) (by norm_num) (by norm_num) (by norm_num) (by norm_num)
  · exact maxsz_eq (v := 2) (a := 18) (b := 7) (c := 3) (d := 1) (by norm_num) (by norm_num)
      (by norm_num) (by norm_num) (by norm_num) (by norm_num) (by norm_num) (by norm_num)
  · exact maxsz_eq (v := 3) (a := 5) (b := 2) (c := 3) (d := 1) (by norm_num) (by norm_num)
      (by norm_num) (by norm_num) (by norm_num) (by norm_num) (by norm_num) (by norm_num)
  · exact maxsz_eq (v := 4) (a := 5) (b := 2) (c := 3) (d := 1) (by norm_num) (by norm_num)
      (by norm_num) (by norm_num) (by norm_num) (by norm_num) (by norm_num) (by norm_num)
  · exact maxsz_eq (v := 5) (a := 18) (b := 7) (c := 3) (d := 1) (by norm_num) (by norm_num)
      (by norm_num) (by norm_num) (by norm_num) (by norm_num) (by norm_num) (by norm_num)
  · exact maxsz_eq (v := 7) (a := 5) (b := 2) (c := 8) (d := 3) (by norm_num) (by norm_num)
      (by norm_num) (by norm_num) (by norm_num) (by norm_num) (by norm_num) (by norm_num)
  · exact maxsz_eq (v := 9) (a := 5) (b := 2) (c := 3) (d := 1) (by norm_num) (by norm_num)
      (by norm_num) (by norm_num) (by norm_num) (by norm_num) (by norm_num) (by norm_num)
  · exact maxsz_eq (v := 12) (a := 2) (b := 1) (c := 3) (d := 1) (by norm_num) (by norm_num)
      (by norm_num) (by norm_num) (by norm_num) (by norm_num) (by norm_num) (by norm_num)
  · exact maxsz_eq (v := 1) (a := 8) (b := 3) (c := 3) (d := 1) (by norm_num) (by norm_num)
      (by norm_num) (by norm_num) (by norm_num) (by norm_num) (by norm_num) (by norm_num)
  · exact maxsz_eq (v := 2) (a := 5) (b := 2) (c := 3) (d := 1) (by norm_num) (by norm_num)
      (by norm_num) (by norm_num) (by norm_num) (by norm_num) (by norm_num) (by norm_num)
  · exact maxsz_eq (v := 2) (a := 14) (b := 5) (c := 3) (d := 1) (by norm_num) (by norm_num)
      (by norm_num) (by norm_num) (by norm_num) (by norm_num) (by norm_num) (by norm_num)
  · exact maxsz_eq (v := 3) (a := 11) (b := 4) (c := 3) (d := 1) (by norm_num) (by norm_num)
      (by norm_num) (by norm_num) (by norm_num) (by norm_num) (by norm_num) (by norm_num)
  · exact maxsz_eq (v := 4) (a := 87) (b := 31) (c := 3) (d := 1) (by norm_num) (by norm_num)
      (by norm_num) (by norm_num) (by norm_num) (by norm_num) (by norm_num) (by norm_num)
  · exact maxsz_eq (v := 6) (a := 8) (b := 3) (c := 3) (d := 1) (by norm_num) (by norm_num)
      (by norm_num) (by norm_num) (by norm_num) (by norm_num) (by norm_num) (by norm_num)
  · exact maxsz_eq (v := 8) (a := 5) (b := 2) (c := 3) (d := 1) (by norm_num) (by norm_num)
      (by norm_num) (by norm_num) (by norm_num) (by norm_num) (by norm_num) (by norm_num)
  · exact maxsz_eq (v := 10) (a := 8) (b := 3) (c := 3) (d := 1) (by norm_num) (by norm_num)
      (by norm_num) (by norm_num) (by norm_num) (by norm_num) (by norm_num) (by norm_num)
  · exact maxsz_eq (v := 14) (a := 2) (b := 1) (c := 3) (d := 1) (by norm_num) (by norm_num)
      (by norm_num) (by norm_num) (by norm_num) (by norm_num) (by norm_num) (by norm_num)
  · exact maxsz_eq (v := 1) (a := 3) (b := 1) (c := 3) (d := 1) (by norm_num) (by norm_num)
      (by norm_num) (by norm_num) (by norm_num) (by norm_num) (by norm_num) (by norm_num)
  · exact maxsz_eq (v := 2) (a := 3) (b := 1) (c := 3) (d := 1) (by norm_num) (by norm_num)
      (by norm_num) (by norm_num) (by norm_num) (by norm_num) (by norm_num) (by norm_num)
  · exact maxsz_eq (v := 3) (a := 3) (b := 1) (c := 3) (d := 1) (by norm_num) (by norm_num)
      (by norm_num) (by norm_num) (by norm_num) (by norm_num) (by norm_num) (by norm_num)
  · exact maxsz_eq (v := 4) (a := 3) (b := 1) (c := 3) (d := 1) (by norm_num) (by norm_num)
      (by norm_num) (by norm_num) (by norm_num) (by norm_num) (by norm_num) (by norm_num)
  · exact maxsz_eq (v := 5) (a := 3) (b := 1) (c := 3) (d := 1) (by norm_num) (by norm_num)
      (by norm_num) (by norm_num) (by norm_num) (by norm_num) (by norm_num) (by norm_num)
  · exact maxsz_eq (v := 7) (a := 3) (b := 1) (c := 3) (d := 1) (by norm_num) (by norm_num)
      (by norm_num) (by norm_num) (by norm_num) (by norm_num) (by norm_num) (by norm_num)
  · exact maxsz_eq (v := 9) (a := 3) (b := 1) (c := 3) (d := 1) (by norm_num) (by norm_num)
      (by norm_num) (by norm_num) (by norm_num) (by norm_num) (by norm_num) (by norm_num)
  · exact maxsz_eq (v := 12) (a := 3) (b := 1) (c := 3) (d := 1) (by norm_num) (by norm_num)
      (by norm_num) (by norm_num) (by norm_num) (by norm_num) (by norm_num) (by norm_num)
  · exact maxsz_eq (v := 16) (a := 3) (b := 1) (c := 3) (d := 1) (by norm_num) (by norm_num)
      (by norm_num) (by norm_num) (by norm_num) (by norm_num) (by norm_num) (by norm_num)
  · exact maxsz_eq (v := 1) (a := 19) (b := 6) (c := 4) (d := 1) (by norm_num) (by norm_num)
      (by norm_num) (by norm_num) (by norm_num) (by norm_num) (by norm_num) (by norm_num)
  · exact maxsz_eq (v := 2) (a := 3) (b := 1) (c := 7) (d := 2) (by norm_num) (by norm_num)
      (by norm_num) (by norm_num) (by norm_num) (by norm_num) (by norm_num) (by norm_num)
  · exact maxsz_eq (v := 3) (a := 3) (b := 1) (c := 13) (d := 4) (by norm_num) (by norm_num)
      (by norm_num) (by norm_num) (by norm_num) (by norm_num) (by norm_num) (by norm_num)
  · exact maxsz_eq (v := 4) (a := 3) (b := 1) (c := 13) (d := 4) (by norm_num) (by norm_num)
      (by norm_num) (by norm_num) (by norm_num) (by norm_num) (by norm_num) (by norm_num)
  · exact maxsz_eq (v := 5) (a := 19) (b := 6) (c := 7) (d := 2) (by norm_num) (by norm_num)
      (by norm_num) (by norm_num) (by norm_num) (by norm_num) (by norm_num) (by norm_num)
  · exact maxsz_eq (v := 7) (a := 3) (b := 1) (c := 7) (d := 2) (by norm_num) (by norm_num)
      (by norm_num) (by norm_num) (by norm_num) (by norm_num) (by norm_num) (by norm_num)
  · exact maxsz_eq (v := 10) (a := 3) (b := 1) (c := 16) (d := 5) (by norm_num) (by norm_num)
      (by norm_num) (by norm_num) (by norm_num) (by norm_num) (by norm_num) (by norm_num)
  · exact maxsz_eq (v := 13) (a := 3) (b := 1) (c := 7) (d := 2) (by norm_num) (by norm_num)
      (by norm_num) (by norm_num) (by norm_num) (by norm_num) (by norm_num) (by norm_num)
  · exact maxsz_eq (v := 18) (a := 3) (b := 1) (c := 4) (d := 1) (by norm_num) (by norm_num)
      (by norm_num) (by norm_num) (by norm_num) (by norm_num) (by norm_num) (by norm_num)
  · exact maxsz_eq (v := 1) (a := 13) (b := 4) (c := 4) (d := 1) (by norm_num) (by norm_num)
      (by norm_num) (by norm_num) (by norm_num) (by norm_num) (by norm_num) (by norm_num)
  · exact maxsz_eq (v := 2) (a := 3) (b := 1) (c := 7) (d := 2) (by norm_num) (by norm_num)
      (by norm_num) (by norm_num) (by norm_num) (by norm_num) (by norm_num) (by norm_num)
  · exact maxsz_eq (v := 3) (a := 3) (b := 1) (c := 7) (d := 2) (by norm_num) (by norm_num)
      (by norm_num) (by norm_num) (by norm_num) (by norm_num) (by norm_num) (by norm_num)
  · exact maxsz_eq (v := 4) (a := 13) (b := 4) (c := 7) (d := 2) (by norm_num) (by norm_num)
      (by norm_num) (by norm_num) (by norm_num) (by norm_num) (by norm_num) (by norm_num)
  · exact maxsz_eq (v := 6) (a := 3) (b := 1) (c := 10) (d := 3) (by norm_num) (by norm_num)
      (by norm_num) (by norm_num) (by norm_num) (by norm_num) (by norm_num) (by norm_num)
  · exact maxsz_eq (v := 8) (a := 3) (b := 1) (c := 10) (d := 3) (by norm_num) (by norm_num)
      (by norm_num) (by norm_num) (by norm_num) (by norm_num) (by norm_num) (by norm_num)
  · exact maxsz_eq (v := 10) (a := 43) (b := 13) (c := 4) (d := 1) (by norm_num) (by norm_num)
      (by norm_num) (by norm_num) (by norm_num) (by norm_num) (by norm_num) (by norm_num)
  · exact maxsz_eq (v := 14) (a := 13) (b := 4) (c := 4) (d := 1) (by norm_num) (by norm_num)
      (by norm_num) (by norm_num) (by norm_num) (by norm_num) (by norm_num) (by norm_num)
  · exact maxsz_eq (v := 20) (a := 3) (b := 1) (c := 4) (d := 1) (by norm_num) (by norm_num)
      (by norm_num) (by norm_num) (by norm_num) (by norm_num) (by norm_num) (by norm_num)
  · exact maxsz_eq (v := 1) (a := 10) (b := 3) (c := 4) (d := 1) (by norm_num) (by norm_num)
      (by norm_num) (by norm_num) (by norm_num) (by norm_num) (by norm_num) (by norm_num)
  · exact maxsz_eq (v := 2) (a := 10) (b := 3) (c := 7) (d := 2) (by norm_num) (by norm_num)
      (by norm_num) (by norm_num) (by norm_num) (by norm_num) (by norm_num) (by norm_num)
  · exact maxsz_eq (v := 3) (a := 10) (b := 3) (c := 7) (d := 2) (by norm_num) (by norm_num)
      (by norm_num) (by norm_num) (by norm_num) (by norm_num) (by norm_num) (by norm_num)
  · exact maxsz_eq (v := 4) (a := 10) (b := 3) (c := 7) (d := 2) (by norm_num) (by norm_num)
      (by norm_num) (by norm_num) (by norm_num) (by norm_num) (by norm_num) (by norm_num)
  · exact maxsz_eq (v := 6) (a := 10) (b := 3) (c := 7) (d := 2) (by norm_num) (by norm_num)
      (by norm_num) (by norm_num) (by norm_num) (by norm_num) (by norm_num) (by norm_num)
  · exact maxsz_eq (v := 8) (a := 10) (b := 3) (c := 7) (d := 2) (by norm_num) (by norm_num)
      (by norm_num) (by norm_num) (by norm_num) (by norm_num) (by norm_num) (by norm_num)
  · exact maxsz_eq (v := 11) (a := 17) (b := 5) (c := 4) (d := 1) (by norm_num) (by norm_num)
      (by norm_num) (by norm_num) (by norm_num) (by norm_num) (by norm_num) (by norm_num)
  · exact maxsz_eq (v := 16) (a := 3) (b := 1) (c := 7) (d := 2) (by norm_num) (by norm_num)
      (by norm_num) (by norm_num) (by norm_num) (by norm_num) (by norm_num) (by norm_num)
  · exact maxsz_eq (v := 22) (a := 3) (b := 1) (c := 4) (d := 1) (by norm_num) (by norm_num)
      (by norm_num) (by norm_num) (by norm_num) (by norm_num) (by norm_num) (by norm_num)
  · exact maxsz_eq (v := 1) (a := 7) (b := 2) (c := 4) (d := 1) (by norm_num) (by norm_num)
      (by norm_num) (by norm_num) (by norm_num) (by norm_num) (by norm_num) (by norm_num)
  · exact maxsz_eq (v := 2) (a := 7) (b := 2) (c := 4) (d := 1) (by norm_num) (by norm_num)
      (by norm_num) (by norm_num) (by norm_num) (by norm_num) (by norm_num) (by norm_num)
  · exact maxsz_eq (v := 3) (a := 7) (b := 2) (c := 4) (d := 1) (by norm_num) (by norm_num)
      (by norm_num) (by norm_num) (by norm_num) (by norm_num) (by norm_num) (by norm_num)
  · exact maxsz_eq (v := 4) (a := 25) (b := 7) (c := 4) (d := 1) (by norm_num) (by norm_num)
      (by norm_num) (by norm_num) (by norm_num) (by norm_num) (by norm_num) (by norm_num)
  · exact maxsz_eq (v := 6) (a := 7) (b := 2) (c := 4) (d := 1) (by norm_num) (by norm_num)
      (by norm_num) (by norm_num) (by norm_num) (by norm_num) (by norm_num) (by norm_num)
  · exact maxsz_eq (v := 9) (a := 7) (b := 2) (c := 11) (d := 3) (by norm_num) (by norm_num)
      (by norm_num) (by norm_num) (by norm_num) (by norm_num) (by norm_num) (by norm_num)
  · exact maxsz_eq (v := 12) (a := 7) (b := 2) (c := 4) (d := 1) (by norm_num) (by norm_num)
      (by norm_num) (by norm_num) (by norm_num) (by norm_num) (by norm_num) (by norm_num)
  · exact maxsz_eq (v := 17) (a := 7) (b := 2) (c := 11) (d := 3) (by norm_num) (by norm_num)
      (by norm_num) (by norm_num) (by norm_num) (by norm_num) (by norm_num) (by norm_num)
  · exact maxsz_eq (v := 24) (a := 3) (b := 1) (c := 4) (d := 1) (by norm_num) (by norm_num)
      (by norm_num) (by norm_num) (by norm_num) (by norm_num) (by norm_num) (by norm_num)
  · exact maxsz_eq (v := 1) (a := 11) (b := 3) (c := 4) (d := 1) (by norm_num) (by norm_num)
      (by norm_num) (by norm_num) (by norm_num) (by norm_num) (by norm_num) (by norm_num)
  · exact maxsz_eq (v := 2) (a := 7) (b := 2) (c := 4) (d := 1) (by norm_num) (by norm_num)
      (by norm_num) (by norm_num) (by norm_num) (by norm_num) (by norm_num) (by norm_num)
  · exact maxsz_eq (v := 3) (a := 7) (b := 2) (c := 4) (d := 1) (by norm_num) (by norm_num)
      (by norm_num) (by norm_num) (by norm_num) (by norm_num) (by norm_num) (by norm_num)
  · exact maxsz_eq (v := 5) (a := 7) (b := 2) (c := 26) (d := 7) (by norm_num) (by norm_num)
      (by norm_num) (by norm_num) (by norm_num) (by norm_num) (by norm_num) (by norm_num)
  · exact maxsz_eq (v := 7) (a := 7) (b := 2) (c := 26) (d := 7) (by norm_num) (by norm_num)
      (by norm_num) (by norm_num) (by norm_num) (by norm_num) (by norm_num) (by norm_num)
  · exact maxsz_eq (v := 9) (a := 11) (b := 3) (c := 4) (d := 1) (by norm_num) (by norm_num)
      (by norm_num) (by norm_num) (by norm_num) (by norm_num) (by norm_num) (by norm_num)
  · exact maxsz_eq (v := 13) (a := 7) (b := 2) (c := 4) (d := 1) (by norm_num) (by norm_num)
      (by norm_num) (by norm_num) (by norm_num) (by norm_num) (by norm_num) (by norm_num)
  · exact maxsz_eq (v := 18) (a := 11) (b := 3) (c := 4) (d := 1) (by norm_num) (by norm_num)
      (by norm_num) (by norm_num) (by norm_num) (by norm_num) (by norm_num) (by norm_num)
  · exact maxsz_eq (v := 26) (a := 3) (b := 1) (c := 4) (d := 1) (by norm_num) (by norm_num)
      (by norm_num) (by norm_num) (by norm_num) (by norm_num) (by norm_num) (by norm_num)
  · exact maxsz_eq (v := 1) (a := 15) (b := 4) (c := 4) (d := 1) (by norm_num) (by norm_num)
      (by norm_num) (by norm_num) (by norm_num) (by norm_num) (by norm_num) (by norm_num)
  · exact maxsz_eq (v := 2) (a := 11) (b := 3) (c := 4) (d := 1) (by norm_num) (by norm_num)
      (by norm_num) (by norm_num) (by norm_num) (by norm_num) (by norm_num) (by norm_num)
  · exact maxsz_eq (v := 3) (a := 11) (b := 3) (c := 4) (d := 1) (by norm_num) (by norm_num)
      (by norm_num) (by norm_num) (by norm_num) (by norm_num) (by norm_num) (by norm_num)
  · exact maxsz_eq (v := 5) (a := 7) (b := 2) (c := 23) (d := 6) (by norm_num) (by norm_num)
      (by norm_num) (by norm_num) (by norm_num) (by norm_num) (by norm_num) (by norm_num)
  · exact maxsz_eq (v := 7) (a := 11) (b := 3) (c := 4) (d := 1) (by norm_num) (by norm_num)
      (by norm_num) (by norm_num) (by norm_num) (by norm_num) (by norm_num) (by norm_num)
  · exact maxsz_eq (v := 10) (a := 7) (b := 2) (c := 23) (d := 6) (by norm_num) (by norm_num)
      (by norm_num) (by norm_num) (by norm_num) (by norm_num) (by norm_num) (by norm_num)
  · exact maxsz_eq (v := 14) (a := 7) (b := 2) (c := 4) (d := 1) (by norm_num) (by norm_num)
      (by norm_num) (by norm_num) (by norm_num) (by norm_num) (by norm_num) (by norm_num)
  · exact maxsz_eq (v := 20) (a := 7) (b := 2) (c := 23) (d := 6) (by norm_num) (by norm_num)
      (by norm_num) (by norm_num) (by norm_num) (by norm_num) (by norm_num) (by norm_num)
  · exact maxsz_eq (v := 28) (a := 3) (b := 1) (c := 4) (d := 1) (by norm_num) (by norm_num)
      (by norm_num) (by norm_num) (by norm_num) (by norm_num) (by norm_num) (by norm_num)
  · exact maxsz_eq (v := 1) (a := 31) (b := 8) (c := 4) (d := 1) (by norm_num) (by norm_num)
      (by norm_num) (by norm_num) (by norm_num) (by norm_num) (by norm_num) (by norm_num)
  · exact maxsz_eq (v := 2) (a := 15) (b := 4) (c := 4) (d := 1) (by norm_num) (by norm_num)
      (by norm_num) (by norm_num) (by norm_num) (by norm_num) (by norm_num) (by norm_num)
  · exact maxsz_eq (v := 3) (a := 23) (b := 6) (c := 4) (d := 1) (by norm_num) (by norm_num)
      (by norm_num) (by norm_num) (by norm_num) (by norm_num) (by norm_num) (by norm_num)
  · exact maxsz_eq (v := 5) (a := 11) (b := 3) (c := 4) (d := 1) (by norm_num) (by norm_num)
      (by norm_num) (by norm_num) (by norm_num) (by norm_num) (by norm_num) (by norm_num)
  · exact maxsz_eq (v := 7) (a := 19) (b := 5) (c := 4) (d := 1) (by norm_num) (by norm_num)
      (by norm_num) (by norm_num) (by norm_num) (by norm_num) (by norm_num) (by norm_num)
  · exact maxsz_eq (v := 10) (a := 23) (b := 6) (c := 4) (d := 1) (by norm_num) (by norm_num)
      (by norm_num) (by norm_num) (by norm_num) (by norm_num) (by norm_num) (by norm_num)
  · exact maxsz_eq (v := 15) (a := 11) (b := 3) (c := 4) (d := 1) (by norm_num) (by norm_num)
      (by norm_num) (by norm_num) (by norm_num) (by norm_num) (by norm_num) (by norm_num)
  · exact maxsz_eq (v := 21) (a := 7) (b := 2) (c := 4) (d := 1) (by norm_num) (by norm_num)
      (by norm_num) (by norm_num) (by norm_num) (by norm_num) (by norm_num) (by norm_num)
  · exact maxsz_eq (v := 30) (a := 3) (b := 1) (c := 4) (d := 1) (by norm_num) (by norm_num)
      (by norm_num) (by norm_num) (by norm_num) (by norm_num) (by norm_num) (by norm_num)
  · exact maxsz_eq (v := 2) (a := 4) (b := 1) (c := 4) (d := 1) (by norm_num) (by norm_num)
      (by norm_num) (by norm_num) (by norm_num) (by norm_num) (by norm_num) (by norm_num)
  · exact maxsz_eq (v := 2) (a := 4) (b := 1) (c := 4) (d := 1) (by norm_num) (by norm_num)
      (by norm_num) (by norm_num) (by norm_num) (by norm_num) (by norm_num) (by norm_num)
  · exact maxsz_eq (v := 4) (a := 4) (b := 1) (c := 4) (d := 1) (by norm_num) (by norm_num)
      (by norm_num) (by norm_num) (by norm_num) (by norm_num) (by norm_num) (by norm_num)
  · exact maxsz_eq (v := 5) (a := 4) (b := 1) (c := 4) (d := 1) (by norm_num) (by norm_num)
      (by norm_num) (by norm_num) (by norm_num) (by norm_num) (by norm_num) (by norm_num)
  · exact maxsz_eq (v := 8) (a := 4) (b := 1) (c := 4) (d := 1) (by norm_num) (by norm_num)
      (by norm_num) (by norm_num) (by norm_num) (by norm_num) (by norm_num) (by norm_num)
  · exact maxsz_eq (v := 11) (a := 4) (b := 1) (c := 4) (d := 1) (by norm_num) (by norm_num)
      (by norm_num) (by norm_num) (by norm_num) (by norm_num) (by norm_num) (by norm_num)
  · exact maxsz_eq (v := 16) (a := 4) (b := 1) (c := 4) (d := 1) (by norm_num) (by norm_num)
      (by norm_num) (by norm_num) (by norm_num) (by norm_num) (by norm_num) (by norm_num)
  · exact maxsz_eq (v := 22) (a := 4) (b := 1) (c := 4) (d := 1) (by norm_num) (by norm_num)
      (by norm_num) (by norm_num) (by norm_num) (by norm_num) (by norm_num) (by norm_num)
  · exact maxsz_eq (v := 32) (a := 4) (b := 1) (c := 4) (d := 1) (by norm_num) (by norm_num)
      (by norm_num) (by norm_num) (by norm_num) (by norm_num) (by norm_num) (by norm_num)
  · exact maxsz_eq (v := 2) (a := 4) (b := 1) (c := 37) (d := 9) (by norm_num) (by norm_num)
      (by norm_num) (by norm_num) (by norm_num) (by norm_num) (by norm_num) (by norm_num)
  · exact maxsz_eq (v := 2) (a := 49) (b := 12) (c := 5) (d := 1) (by norm_num) (by norm_num)
      (by norm_num) (by norm_num) (by norm_num) (by norm_num) (by norm_num) (by norm_num)
  · exact maxsz_eq (v := 4) (a := 4) (b := 1) (c := 29) (d := 7) (by norm_num) (by norm_num)
      (by norm_num) (by norm_num) (by norm_num) (by norm_num) (by norm_num) (by norm_num)
  · exact maxsz_eq (v := 5) (a := 49) (b := 12) (c := 9) (d := 2) (by norm_num) (by norm_num)
      (by norm_num) (by norm_num) (by norm_num) (by norm_num) (by norm_num) (by norm_num)
  · exact maxsz_eq (v := 8) (a := 4) (b := 1) (c := 17) (d := 4) (by norm_num) (by norm_num)
      (by norm_num) (by norm_num) (by norm_num) (by norm_num) (by norm_num) (by norm_num)
  · exact maxsz_eq (v := 11) (a := 49) (b := 12) (c := 9) (d := 2) (by norm_num) (by norm_num)
      (by norm_num) (by norm_num) (by norm_num) (by norm_num) (by norm_num) (by norm_num)
  · exact maxsz_eq (v := 16) (a := 49) (b := 12) (c := 9) (d := 2) (by norm_num) (by norm_num)
      (by norm_num) (by norm_num) (by norm_num) (by norm_num) (by norm_num) (by norm_num)
  · exact maxsz_eq (v := 23) (a := 49) (b := 12) (c := 9) (d := 2) (by norm_num) (by norm_num)
      (by norm_num) (by norm_num) (by norm_num) (by norm_num) (by norm_num) (by norm_num)
  · exact maxsz_eq (v := 34) (a := 4) (b := 1) (c := 5) (d := 1) (by norm_num) (by norm_num)
      (by norm_num) (by norm_num) (by norm_num) (by norm_num) (by norm_num) (by norm_num)

theorem tab_rebuild {n : Nat} (h2 : n ≤ 17) (k : Nat) :
    tabSizing.rebuild k n = realSizing.rebuild k n := by
  symm
  have hn : n = 0 ∨ n = 1 ∨ n = 2 ∨ n = 3 ∨ n = 4 ∨ n = 5 ∨ n = 6 ∨ n = 7 ∨ n = 8 ∨ n = 9 ∨ n = 10 ∨ n = 11 ∨ n = 12 ∨ n = 13 ∨ n = 14 ∨ n = 15 ∨ n = 16 ∨ n = 17 := by omega
  rcases hn with rfl | rfl | rfl | rfl | rfl | rfl | rfl | rfl | rfl | rfl | rfl | rfl | rfl | rfl | rfl | rfl | rfl | rfl
  · rfl
  · rfl
  · rfl
  · exact rebuild_eq (t := 4) (a := 11) (b := 7) (c := 5) (d := 3) (by norm_num) (by norm_num)
      (by norm_num) (by norm_num) (by norm_num) (by norm_num) (by norm_num) (by norm_num) k
  · exact rebuild_eq (t := 4) (a := 2) (b := 1) (c := 2) (d := 1) (by norm_num) (by norm_num)
      (by norm_num) (by norm_num) (by norm_num) (by norm_num) (by norm_num) (by norm_num) k
  · exact rebuild_eq (t := 4) (a := 9) (b := 4) (c := 7) (d := 3) (by norm_num) (by norm_num)
      (by norm_num) (by norm_num) (by norm_num) (by norm_num) (by norm_num) (by norm_num) k
  · exact rebuild_eq (t := 4) (a := 5) (b := 2) (c := 8) (d := 3) (by norm_num) (by norm_num)
      (by norm_num) (by norm_num) (by norm_num) (by norm_num) (by norm_num) (by norm_num) k
  · exact rebuild_eq (t := 4) (a := 8) (b := 3) (c := 3) (d := 1) (by norm_num) (by norm_num)
      (by norm_num) (by norm_num) (by norm_num) (by norm_num) (by norm_num) (by norm_num) k
  · exact rebuild_eq (t := 5) (a := 3) (b := 1) (c := 3) (d := 1) (by norm_num) (by norm_num)
      (by norm_num) (by norm_num) (by norm_num) (by norm_num) (by norm_num) (by norm_num) k
  · exact rebuild_eq (t := 5) (a := 3) (b := 1) (c := 10) (d := 3) (by norm_num) (by norm_num)
      (by norm_num) (by norm_num) (by norm_num) (by norm_num) (by norm_num) (by norm_num) k
  · exact rebuild_eq (t := 5) (a := 13) (b := 4) (c := 4) (d := 1) (by norm_num) (by norm_num)
      (by norm_num) (by norm_num) (by norm_num) (by norm_num) (by norm_num) (by norm_num) k
  · exact rebuild_eq (t := 6) (a := 3) (b := 1) (c := 7) (d := 2) (by norm_num) (by norm_num)
      (by norm_num) (by norm_num) (by norm_num) (by norm_num) (by norm_num) (by norm_num) k
  · exact rebuild_eq (t := 6) (a := 7) (b := 2) (c := 4) (d := 1) (by norm_num) (by norm_num)
      (by norm_num) (by norm_num) (by norm_num) (by norm_num) (by norm_num) (by norm_num) k
  · exact rebuild_eq (t := 6) (a := 11) (b := 3) (c := 4) (d := 1) (by norm_num) (by norm_num)
      (by norm_num) (by norm_num) (by norm_num) (by norm_num) (by norm_num) (by norm_num) k
  · exact rebuild_eq (t := 7) (a := 7) (b := 2) (c := 4) (d := 1) (by norm_num) (by norm_num)
      (by norm_num) (by norm_num) (by norm_num) (by norm_num) (by norm_num) (by norm_num) k
  · exact rebuild_eq (t := 7) (a := 15) (b := 4) (c := 4) (d := 1) (by norm_num) (by norm_num)
      (by norm_num) (by norm_num) (by norm_num) (by norm_num) (by norm_num) (by norm_num) k
  · exact rebuild_eq (t := 8) (a := 4) (b := 1) (c := 4) (d := 1) (by norm_num) (by norm_num)
      (by norm_num) (by norm_num) (by norm_num) (by norm_num) (by norm_num) (by norm_num) k
  · exact rebuild_eq (t := 8) (a := 4) (b := 1) (c := 13) (d := 3) (by norm_num) (by norm_num)
      (by norm_num) (by norm_num) (by norm_num) (by norm_num) (by norm_num) (by norm_num) k

/-- The buffer capacity `MAXSZ(m,0)` does not decrease from `lo` on. -/
def Sizing.MonoFrom (S : Sizing) (lo : Nat) : Prop :=
  ∀ m m', lo ≤ m → m ≤ m' → S.maxsz m 0 ≤ S.maxsz m' 0

theorem exp_two_le_eight : Real.exp 2 ≤ 8 := by
  have h : Real.exp 2 = Real.exp 1 * Real.exp 1 := by rw [← Real.exp_add]; norm_num
  have h1 := Real.exp_one_lt_d9
  have h0 := Real.exp_pos 1
  rw [h]; nlinarith

/-- `2m/log2(m)^2` is non-decreasing for `m ≥ 8` (it is not below: 2 at `m = 4`, 1 at `m = 5`). -/
theorem realSizing_mono : realSizing.MonoFrom 8 := by
  intro m m' h1 h2
  show ⌊(2 * m : ℝ) / (Real.logb 2 m) ^ (2 - ((0 : ℕ) : ℝ) * (1 / 4))⌋₊ ≤
    ⌊(2 * m' : ℝ) / (Real.logb 2 m') ^ (2 - ((0 : ℕ) : ℝ) * (1 / 4))⌋₊
  have h8 : (8 : ℝ) ≤ m := by exact_mod_cast h1
  have hmm : (m : ℝ) ≤ m' := by exact_mod_cast h2
  have e : (2 : ℝ) - ((0 : ℕ) : ℝ) * (1 / 4) = ((2 : ℕ) : ℝ) := by norm_num
  rw [e, Real.rpow_natCast, Real.rpow_natCast]
  apply Nat.floor_le_floor
  have hanti := Real.log_div_sqrt_antitoneOn (a := (m : ℝ)) (b := (m' : ℝ))
    (le_trans exp_two_le_eight h8) (le_trans exp_two_le_eight (le_trans h8 hmm)) hmm
  simp only at hanti
  have key : ∀ x : ℝ, 8 ≤ x → 2 * x / (Real.logb 2 x) ^ 2
      = 2 * (Real.log 2) ^ 2 / (Real.log x / Real.sqrt x) ^ 2 := by
    intro x hx
    have hl : 0 < Real.log x := Real.log_pos (by linarith)
    have hl2 : 0 < Real.log 2 := Real.log_pos (by norm_num)
    rw [div_pow, Real.sq_sqrt (by linarith), Real.logb, div_pow]
    field_simp
  rw [key _ h8, key _ (le_trans h8 hmm)]
  have hp : 0 < Real.log (m' : ℝ) / Real.sqrt (m' : ℝ) := by
    apply div_pos (Real.log_pos (by linarith)) (Real.sqrt_pos.2 (by linarith))
  gcongr

end DK2
