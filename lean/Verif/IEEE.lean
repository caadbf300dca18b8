import Verif.PRFloat
import Mathlib.Data.Int.Log
import Mathlib.Data.Rat.Floor
import Mathlib.Tactic.Positivity
/-!
# The arithmetic of a machine

`double` and `float` arithmetic of IEEE-754, round to nearest, ties to even, on the rationals: it meets the assumptions of
`FArith.IEEE`. Not represented: infinities and NaN (no operand of the theorems reaches them).
-/

namespace DK2
namespace IEEE

/-- Round to the nearest integer, ties to even. -/
def rne (x : ℚ) : ℤ :=
  if x - ⌊x⌋ < 1 / 2 then ⌊x⌋
  else if 1 / 2 < x - ⌊x⌋ then ⌊x⌋ + 1
  else if ⌊x⌋ % 2 = 0 then ⌊x⌋ else ⌊x⌋ + 1

theorem rne_near (x : ℚ) : |(rne x : ℚ) - x| ≤ 1 / 2 := by
  have h1 := Int.floor_le x
  have h2 := Int.lt_floor_add_one x
  unfold rne
  rw [abs_le]
  split
  · constructor <;> linarith
  · split
    · push_cast
      constructor <;> linarith
    · split
      · constructor <;> linarith
      · push_cast
        constructor <;> linarith

theorem rne_nonneg {x : ℚ} (h : 0 ≤ x) : 0 ≤ rne x := by
  have h1 : 0 ≤ ⌊x⌋ := Int.floor_nonneg.2 h
  unfold rne
  split
  · exact h1
  · split
    · omega
    · split <;> omega

/-- `x` rounded to a multiple of `2^e`. -/
def at2 (e : ℤ) (x : ℚ) : ℚ := (rne (x / 2 ^ e) : ℚ) * 2 ^ e

theorem at2_near (e : ℤ) (x : ℚ) : |at2 e x - x| ≤ 2 ^ e / 2 := by
  have he : (0 : ℚ) < 2 ^ e := by positivity
  have h := rne_near (x / 2 ^ e)
  have h2 : at2 e x - x = ((rne (x / 2 ^ e) : ℚ) - x / 2 ^ e) * 2 ^ e := by
    unfold at2
    rw [sub_mul, div_mul_cancel₀ _ he.ne']
  rw [h2, abs_mul, abs_of_pos he]
  have := mul_le_mul_of_nonneg_right h he.le
  linarith

theorem at2_nonneg (e : ℤ) {x : ℚ} (h : 0 ≤ x) : 0 ≤ at2 e x := by
  have he : (0 : ℚ) < 2 ^ e := by positivity
  have : (0 : ℚ) ≤ (rne (x / 2 ^ e) : ℚ) := by exact_mod_cast rne_nonneg (div_nonneg h he.le)
  unfold at2
  positivity

/-- `x` rounded to `p` significant bits. -/
def rnd (p : Nat) (x : ℚ) : ℚ := if x = 0 then 0 else at2 (Int.log 2 |x| + 1 - p) x

/-- A product of `double`s: 53 significant bits, and no multiples of anything smaller than `2^-1074`. A sum of `double`s
is a multiple of `2^-1074` anyway. -/
def rndD (x : ℚ) : ℚ := if x = 0 then 0 else at2 (max (Int.log 2 |x| + 1 - 53) (-1074)) x

theorem rnd_near (p : Nat) (x : ℚ) : |rnd p x - x| ≤ 1 / 2 ^ p * |x| := by
  unfold rnd
  split
  · rename_i h; rw [h]; simp
  · rename_i h
    have hx : 0 < |x| := abs_pos.2 h
    refine le_trans (at2_near _ _) ?_
    have h1 : (2 : ℚ) ^ Int.log 2 |x| ≤ |x| := by
      have := Int.zpow_log_le_self (R := ℚ) (b := 2) (by norm_num) hx
      exact_mod_cast this
    have h2 : (2 : ℚ) ^ (Int.log 2 |x| + 1 - (p : ℤ)) / 2 = 1 / 2 ^ p * 2 ^ Int.log 2 |x| := by
      rw [zpow_sub₀ (by norm_num), zpow_add₀ (by norm_num), zpow_natCast]
      field_simp
    rw [h2]
    exact mul_le_mul_of_nonneg_left h1 (by positivity)

theorem rndD_near (x : ℚ) : |rndD x - x| ≤ 1 / 2 ^ 53 * |x| + 1 / 2 ^ 1074 := by
  have he : (0 : ℚ) < 1 / 2 ^ 1074 := by positivity
  unfold rndD
  split
  · rename_i h; rw [h]; simp
  · rename_i h
    have hx : 0 < |x| := abs_pos.2 h
    refine le_trans (at2_near _ _) ?_
    rcases max_choice (Int.log 2 |x| + 1 - 53) (-1074) with hm | hm
    · have h3 := rnd_near 53 x
      rw [hm]
      have h1 : (2 : ℚ) ^ Int.log 2 |x| ≤ |x| := by
        have := Int.zpow_log_le_self (R := ℚ) (b := 2) (by norm_num) hx
        exact_mod_cast this
      have h2 : (2 : ℚ) ^ (Int.log 2 |x| + 1 - (53 : ℤ)) / 2 = 1 / 2 ^ 53 * 2 ^ Int.log 2 |x| := by
        rw [show (53 : ℤ) = ((53 : Nat) : ℤ) from rfl, zpow_sub₀ (by norm_num), zpow_add₀ (by norm_num), zpow_natCast]
        field_simp
      rw [h2]
      have := mul_le_mul_of_nonneg_left h1 (by positivity : (0 : ℚ) ≤ 1 / 2 ^ 53)
      linarith
    · rw [hm]
      have h2 : (2 : ℚ) ^ (-1074 : ℤ) = 1 / 2 ^ 1074 := by
        rw [zpow_neg, one_div]
        congr 1
      rw [h2]
      have : (0 : ℚ) ≤ 1 / 2 ^ 53 * |x| := by positivity
      linarith

theorem rndD_nonneg {x : ℚ} (h : 0 ≤ x) : 0 ≤ rndD x := by
  unfold rndD
  split
  · exact le_refl _
  · exact at2_nonneg _ h

/-- The operations of `pageRank` on a machine: `double` addition, subtraction and multiplication, `1.0f / m` for a
`double`, and `1.0f / m` for an integer, which is converted to `float` first. -/
def arith : FArith ℚ where
  add x y := rnd 53 (x + y)
  sub x y := rnd 53 (x - y)
  mul x y := rndD (x * y)
  inv m := rnd 53 (1 / m)
  inv32 m := rnd 24 (1 / rnd 24 m)

theorem arith_ieee : arith.IEEE := by
  refine ⟨fun x y _ _ => rnd_near 53 _, fun x y _ _ => rnd_near 53 _, fun x y _ _ => rndD_near _,
    fun x y hx hy => rndD_nonneg (mul_nonneg hx hy), fun m hm _ => ?_, fun m hm _ => ?_⟩
  · have h := rnd_near 53 (1 / (m : ℚ))
    rw [abs_of_nonneg (by positivity : (0 : ℚ) ≤ 1 / (m : ℚ))] at h
    exact h
  · have hm0 : (0 : ℚ) < (m : ℚ) := by exact_mod_cast hm
    have h1 := abs_le.1 (rnd_near 24 (m : ℚ))
    rw [abs_of_pos hm0] at h1
    obtain ⟨y, hy⟩ : ∃ y, y = rnd 24 (m : ℚ) := ⟨_, rfl⟩
    rw [← hy] at h1
    have hy1 : (1 - 1 / 2 ^ 24) * (m : ℚ) ≤ y := by linarith
    have hy2 : y ≤ (1 + 1 / 2 ^ 24) * (m : ℚ) := by linarith
    have hy0 : 0 < y := lt_of_lt_of_le (by positivity) hy1
    have h2 := abs_le.1 (rnd_near 24 (1 / y))
    rw [abs_of_pos (by positivity : 0 < 1 / y)] at h2
    have hlo : 1 / ((1 + 1 / 2 ^ 24) * (m : ℚ)) ≤ 1 / y := one_div_le_one_div_of_le hy0 hy2
    have hhi : 1 / y ≤ 1 / ((1 - 1 / 2 ^ 24) * (m : ℚ)) := one_div_le_one_div_of_le (by positivity) hy1
    have e1 : 1 / ((1 + 1 / 2 ^ 24) * (m : ℚ)) = 1 / (1 + 1 / 2 ^ 24) * (1 / m) := by field_simp
    have e2 : 1 / ((1 - 1 / 2 ^ 24) * (m : ℚ)) = 1 / (1 - 1 / 2 ^ 24) * (1 / m) := by field_simp
    rw [e1] at hlo
    rw [e2] at hhi
    show |rnd 24 (1 / rnd 24 (m : ℚ)) - 1 / m| ≤ 1 / 2 ^ 22 * (1 / m)
    rw [← hy]
    have hi0 : (0 : ℚ) ≤ 1 / (m : ℚ) := by positivity
    rw [abs_le]
    have k1 : (1 - 1 / 2 ^ 24) * (1 / (1 + 1 / 2 ^ 24) * (1 / (m : ℚ))) ≥ (1 - 1 / 2 ^ 22) * (1 / m) := by
      have : (1 - 1 / 2 ^ 22 : ℚ) ≤ (1 - 1 / 2 ^ 24) * (1 / (1 + 1 / 2 ^ 24)) := by norm_num
      have := mul_le_mul_of_nonneg_right this hi0
      linarith
    have k2 : (1 + 1 / 2 ^ 24) * (1 / (1 - 1 / 2 ^ 24) * (1 / (m : ℚ))) ≤ (1 + 1 / 2 ^ 22) * (1 / m) := by
      have : (1 + 1 / 2 ^ 24 : ℚ) * (1 / (1 - 1 / 2 ^ 24)) ≤ (1 + 1 / 2 ^ 22) := by norm_num
      have := mul_le_mul_of_nonneg_right this hi0
      linarith
    constructor <;> linarith

end IEEE
end DK2
