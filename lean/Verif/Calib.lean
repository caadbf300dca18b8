import Verif.FloatSizing
/-!
# What the proofs need of the thresholds

`Sizing.Calibrated` lists it; the formulas over the reals and the formulas in floating point both have it.
-/

namespace DK2

/-- The numeric facts about the thresholds that the theorems on large graphs and on rare deletions use. `X` bounds the
number of edges. -/
structure Sizing.Calibrated (S : Sizing) (X : Nat) : Prop where
  /-- The top level holds `2m` edges. -/
  top : S.Top
  /-- The buffer holds 6 edges from 162 vertices on. -/
  cap6 : ∀ {m : Nat}, 162 ≤ m → 6 ≤ S.maxsz m 0
  /-- The buffer holds 7 edges from 256 vertices on. -/
  cap7 : ∀ {m : Nat}, 256 ≤ m → 7 ≤ S.maxsz m 0
  /-- From 16 vertices or edges on, the buffer holds at most an eighth of them. -/
  eighth : ∀ {m : Nat}, 16 ≤ m → S.maxsz m 0 ≤ m / 8
  /-- One marked edge per six live ones triggers no reorganisation. -/
  rare : ∀ {k m : Nat}, 6 * k ≤ m → m ≤ X → S.rebuild k m = false

/-! ## Over the reals -/

/-- `MAXSZ(m,0) ≥ 6` from 162 vertices on. -/
theorem realSizing_cap {m : Nat} (h : 162 ≤ m) : 6 ≤ realSizing.maxsz m 0 := by
  have h1 : realSizing.maxsz 162 0 = 6 := maxsz_eq (a := 7) (b := 1) (c := 169) (d := 23) (by norm_num)
    (by norm_num) (by norm_num) (by norm_num) (by norm_num) (by norm_num) (by norm_num) (by norm_num)
  have := realSizing_mono 162 m (by norm_num) h
  omega

/-- `MAXSZ(m,0) ≥ 7` from 256 vertices on. -/
theorem realSizing_cap7 {m : Nat} (h : 256 ≤ m) : 7 ≤ realSizing.maxsz m 0 := by
  have h1 : realSizing.maxsz 256 0 = 8 := by
    show ⌊(2 * (256 : ℕ) : ℝ) / (Real.logb 2 (256 : ℕ)) ^ (2 - ((0 : ℕ) : ℝ) * (1 / 4))⌋₊ = 8
    have e : Real.logb 2 ((256 : ℕ) : ℝ) = 8 := by
      rw [show ((256 : ℕ) : ℝ) = (2 : ℝ) ^ (8 : ℝ) by norm_num, Real.logb_rpow (by norm_num) (by norm_num)]
    rw [e]
    norm_num
  have := realSizing_mono 256 m (by norm_num) h
  omega

/-- With at most `2^64` edges, one marked edge per six live ones triggers no reorganisation. -/
theorem rebuild_rare {k m : Nat} (h : 6 * k ≤ m) (hm : m ≤ 2 ^ 64) : realSizing.rebuild k m = false := by
  show (if m = 0 then false else if m = 1 then decide (0 < k) else if m = 2 then false
    else @decide ((m : ℝ) / Real.logb 2 (Real.logb 2 m) < (k : ℝ)) (Classical.propDecidable _)) = _
  split
  · rfl
  · split
    · have : k = 0 := by omega
      simp [this]
    · split
      · rfl
      · have h3 : 3 ≤ m := by omega
        have hL1 : 1 < Real.logb 2 m := by
          rw [Real.lt_logb_iff_rpow_lt (by norm_num) (by exact_mod_cast (by omega : 0 < m))]
          simp only [Real.rpow_one]
          exact_mod_cast (by omega : 2 < m)
        have hL64 : Real.logb 2 m ≤ 64 := by
          rw [Real.logb_le_iff_le_rpow (by norm_num) (by exact_mod_cast (by omega : 0 < m))]
          have : (2 : ℝ) ^ (64 : ℝ) = ((2 ^ 64 : ℕ) : ℝ) := by
            rw [show (64 : ℝ) = ((64 : ℕ) : ℝ) by norm_num, Real.rpow_natCast]; norm_num
          rw [this]
          exact_mod_cast hm
        have hLL : 0 < Real.logb 2 (Real.logb 2 m) := Real.logb_pos (by norm_num) hL1
        have hLL6 : Real.logb 2 (Real.logb 2 m) ≤ 6 := by
          rw [Real.logb_le_iff_le_rpow (by norm_num) (by linarith)]
          have : (2 : ℝ) ^ (6 : ℝ) = 64 := by
            rw [show (6 : ℝ) = ((6 : ℕ) : ℝ) by norm_num, Real.rpow_natCast]; norm_num
          rw [this]; exact hL64
        apply decide_eq_false
        rw [div_lt_iff₀ hLL, not_lt]
        have h1 : (k : ℝ) * Real.logb 2 (Real.logb 2 m) ≤ k * 6 :=
          mul_le_mul_of_nonneg_left hLL6 (by positivity)
        have h2 : (k : ℝ) * 6 ≤ m := by exact_mod_cast (by omega : k * 6 ≤ m)
        linarith

/-- The buffer of a graph with `m ≥ 16` vertices or edges holds at most `m/8` edges. -/
theorem maxsz_zero_le {m : Nat} (h : 16 ≤ m) : realSizing.maxsz m 0 ≤ m / 8 := by
  show ⌊(2 * m : ℝ) / (Real.logb 2 m) ^ (2 - ((0 : ℕ) : ℝ) * (1 / 4))⌋₊ ≤ _
  have hL : 4 ≤ Real.logb 2 m := by
    have := logb_ge (m := m) (a := 4) (b := 1) (by omega) (by norm_num) (by rw [pow_one]; omega)
    simpa using this
  have he : (2 : ℝ) - ((0 : ℕ) : ℝ) * (1 / 4) = ((2 : ℕ) : ℝ) := by norm_num
  rw [he, Real.rpow_natCast, Nat.le_div_iff_mul_le (by norm_num)]
  have h16 : (16 : ℝ) ≤ Real.logb 2 m ^ 2 := by nlinarith
  have hm : (0 : ℝ) ≤ m := by positivity
  have h1 : (⌊(2 * m : ℝ) / Real.logb 2 m ^ 2⌋₊ : ℝ) ≤ 2 * m / Real.logb 2 m ^ 2 := Nat.floor_le (by positivity)
  have h2 : (2 * m : ℝ) / Real.logb 2 m ^ 2 ≤ m / 8 := by
    rw [div_le_div_iff₀ (by positivity) (by norm_num)]
    nlinarith
  have h3 : (⌊(2 * m : ℝ) / Real.logb 2 m ^ 2⌋₊ : ℝ) * 8 ≤ m := by linarith
  exact_mod_cast h3

theorem realSizing_calibrated : realSizing.Calibrated (2 ^ 64) where
  top := realSizing_top
  cap6 := realSizing_cap
  cap7 := realSizing_cap7
  eighth := maxsz_zero_le
  rare := rebuild_rare

/-! ## In floating point -/

/-- `2m/log2(m)^2` does not decrease from `m = 8` on. -/
theorem quot_mono {m m' : ℕ} (h1 : 8 ≤ m) (h2 : m ≤ m') :
    (2 * m : ℝ) / Real.logb 2 m ^ 2 ≤ 2 * m' / Real.logb 2 m' ^ 2 := by
  have h8 : (8 : ℝ) ≤ m := by exact_mod_cast h1
  have hmm : (m : ℝ) ≤ m' := by exact_mod_cast h2
  have hanti := Real.log_div_sqrt_antitoneOn (a := (m : ℝ)) (b := (m' : ℝ))
    (le_trans exp_two_le_eight h8) (le_trans exp_two_le_eight (le_trans h8 hmm)) hmm
  simp only at hanti
  have key : ∀ x : ℝ, 8 ≤ x → 2 * x / (Real.logb 2 x) ^ 2
      = 2 * (Real.log 2) ^ 2 / (Real.log x / Real.sqrt x) ^ 2 := by
    intro x hx
    have hl : 0 < Real.log x := Real.log_pos (by linarith)
    have hl2 : 0 < Real.log 2 := Real.log_pos (by norm_num)
    rw [div_pow, Real.sq_sqrt (by linarith), Real.logb, div_pow]
    field_simp
  rw [key _ h8, key _ (le_trans h8 hmm)]
  have hp : 0 < Real.log (m' : ℝ) / Real.sqrt (m' : ℝ) := by
    apply div_pos (Real.log_pos (by linarith)) (Real.sqrt_pos.2 (by linarith))
  gcongr

/-- `MAXSZ(m,0)` before `floor`, against `2m/log2(m)^2`. -/
theorem fmax_zero {A : FloatLib} (hA : A.Accurate) {m : ℕ} (hm : 2 ≤ m) (hM : m < 2 ^ 52) :
    ∃ F : ℝ, (floatSizing A).maxsz m 0 = ⌊F⌋₊ ∧ 2 * m / Real.logb 2 m ^ 2 * (1 - 6 * feps) ≤ F ∧
      F ≤ 2 * m / Real.logb 2 m ^ 2 * (1 + 6 * feps) := by
  obtain ⟨f1, f2⟩ := fmax hA hm hM (i := 0) (by norm_num)
  have he : (2 : ℝ) - ((0 : ℕ) : ℝ) * (1 / 4) = ((2 : ℕ) : ℝ) := by norm_num
  have e := floatSizing_maxsz A 0 hm hM
  rw [he] at f1 f2 e
  rw [Real.rpow_natCast] at f1 f2
  exact ⟨_, e, f1, f2⟩

theorem fcap {A : FloatLib} (hA : A.Accurate) {m0 c a d : ℕ} (h8 : 8 ≤ m0) (hd : 0 < d) (h1 : m0 ^ d ≤ 2 ^ a)
    (h2 : c * a ^ 2 * 100000 ≤ 2 * m0 * d ^ 2 * 99999) {m : ℕ} (h : m0 ≤ m) (hM : m < 2 ^ 52) :
    c ≤ (floatSizing A).maxsz m 0 := by
  obtain ⟨F, f0, f1, _⟩ := fmax_zero hA (m := m) (by omega) hM
  rw [f0]
  apply Nat.le_floor
  refine le_trans ?_ f1
  have l := logb_le (m := m0) (by omega) hd h1
  have l0 := logb_pos (m := m0) (by omega)
  have hq := quot_mono h8 h
  have e := feps_pos
  have e' := feps_le
  have hd' : (0 : ℝ) < d := by exact_mod_cast hd
  have h2' : (c : ℝ) * a ^ 2 * 100000 ≤ 2 * m0 * d ^ 2 * 99999 := by exact_mod_cast h2
  have hc : (c : ℝ) * (100000 / 99999) ≤ 2 * m0 / Real.logb 2 m0 ^ 2 := by
    rw [le_div_iff₀ (by positivity)]
    have hL : Real.logb 2 m0 ^ 2 ≤ (a : ℝ) ^ 2 / d ^ 2 := by
      rw [← div_pow]; exact pow_le_pow_left₀ (by linarith) l 2
    calc (c : ℝ) * (100000 / 99999) * Real.logb 2 m0 ^ 2 ≤ (c : ℝ) * (100000 / 99999) * ((a : ℝ) ^ 2 / d ^ 2) := by gcongr
      _ = (c * a ^ 2 * (100000 / 99999)) / (d : ℝ) ^ 2 := by ring
      _ ≤ 2 * m0 := by rw [div_le_iff₀ (by positivity)]; linarith
  have hV := le_trans hc hq
  have hc0 : (0 : ℝ) ≤ c := by positivity
  calc (c : ℝ) ≤ (c : ℝ) * (100000 / 99999) * (1 - 6 * feps) := by nlinarith
    _ ≤ _ := mul_le_mul_of_nonneg_right hV (by linarith)

theorem feighth {A : FloatLib} (hA : A.Accurate) {m : ℕ} (h : 16 ≤ m) (hM : m < 2 ^ 52) :
    (floatSizing A).maxsz m 0 ≤ m / 8 := by
  by_cases h36 : m < 36
  · rw [fhyb_maxsz hA (by omega) h36 (by norm_num)]
    exact maxsz_zero_le h
  · obtain ⟨F, f0, _, f2⟩ := fmax_zero hA (m := m) (by omega) hM
    rw [f0, Nat.le_div_iff_mul_le (by norm_num)]
    have e := feps_pos
    have e' := feps_le
    have hL : 5 ≤ Real.logb 2 m := by
      have := logb_ge (m := m) (a := 5) (b := 1) (by omega) (by norm_num) (by rw [pow_one]; omega)
      simpa using this
    have hm : (0 : ℝ) < m := by exact_mod_cast (by omega : 0 < m)
    have h25 : (25 : ℝ) ≤ Real.logb 2 m ^ 2 := by nlinarith
    have h2 : (2 * m : ℝ) / Real.logb 2 m ^ 2 ≤ 2 * m / 25 :=
      div_le_div_of_nonneg_left (by positivity) (by norm_num) h25
    have h3 : F ≤ m / 8 := by
      refine le_trans f2 ?_
      calc (2 * m : ℝ) / Real.logb 2 m ^ 2 * (1 + 6 * feps) ≤ 2 * m / 25 * (1 + 6 * feps) :=
            mul_le_mul_of_nonneg_right h2 (by linarith)
        _ ≤ m / 8 := by nlinarith
    by_cases hF : 0 ≤ F
    · have h4 : (⌊F⌋₊ : ℝ) ≤ F := Nat.floor_le hF
      have h5 : (⌊F⌋₊ : ℝ) * 8 ≤ m := by linarith
      exact_mod_cast h5
    · rw [Nat.floor_of_nonpos (by linarith)]; omega

theorem frare {A : FloatLib} (hA : A.Accurate) {k m : ℕ} (h : 6 * k ≤ m) (hM : m < 2 ^ 52) :
    (floatSizing A).rebuild k m = false := by
  by_cases h3 : 3 ≤ m
  · rw [floatSizing_rebuild A k h3 hM]
    apply decide_eq_false
    obtain ⟨_, _, f⟩ := fthr hA h3 hM
    have e := feps_pos
    have e' := feps_le
    have h' : (6 : ℝ) * k ≤ m := by exact_mod_cast h
    have hm : (0 : ℝ) < m := by exact_mod_cast (by omega : 0 < m)
    rw [not_lt]
    refine le_trans ?_ f
    nlinarith
  · have hk : k = 0 := by omega
    have : m = 0 ∨ m = 1 ∨ m = 2 := by omega
    rcases this with rfl | rfl | rfl
    · rfl
    · rw [hk]; rfl
    · rfl

/-- Every accurate library gives calibrated thresholds, up to `2^52 - 1` edges. -/
theorem floatSizing_calibrated {A : FloatLib} (hA : A.Accurate) : (floatSizing A).Calibrated (2 ^ 52 - 1) where
  top := floatSizing_top hA
  cap6 := by
    intro m h
    by_cases hM : m < 2 ^ 52
    · exact fcap hA (m0 := 162) (a := 169) (d := 23) (by norm_num) (by norm_num) (by norm_num) (by norm_num) h hM
    · show 6 ≤ if _ then _ else realSizing.maxsz m 0
      rw [if_neg (by omega)]; exact realSizing_cap h
  cap7 := by
    intro m h
    by_cases hM : m < 2 ^ 52
    · exact fcap hA (m0 := 256) (a := 8) (d := 1) (by norm_num) (by norm_num) (by norm_num) (by norm_num) h hM
    · show 7 ≤ if _ then _ else realSizing.maxsz m 0
      rw [if_neg (by omega)]; exact realSizing_cap7 h
  eighth := by
    intro m h
    by_cases hM : m < 2 ^ 52
    · exact feighth hA h hM
    · show (if _ then _ else realSizing.maxsz m 0) ≤ _
      rw [if_neg (by omega)]; exact maxsz_zero_le h
  rare := fun h hM => frare hA h (by omega)

/-! ## Libraries exist -/

/-- Exact arithmetic. -/
noncomputable def exactLib : FloatLib := ⟨Real.logb 2, fun x y => x ^ y, fun x y => x / y⟩

theorem exactLib_accurate : exactLib.Accurate := by
  have r : ∀ y : ℝ, 0 ≤ y → Rounds y y := fun y hy => ⟨by rw [sub_self, abs_zero]; positivity, fun k h => h⟩
  refine ⟨fun x h1 _ => r _ (Real.logb_nonneg (by norm_num) h1), fun x y h1 _ _ _ => r _ (Real.rpow_nonneg (by linarith) _),
    fun x y h1 _ h3 _ => r _ (div_nonneg (by linarith) (by linarith))⟩

open Classical in
/-- Every result that is no integer is too large by a factor `1 + 2^-41`. -/
noncomputable def skew (y : ℝ) : ℝ := if ∃ k : ℕ, y = k then y else y * (1 + 1 / 2 ^ 41)

/-- A library that rounds everything upwards. -/
noncomputable def skewLib : FloatLib := ⟨fun x => skew (Real.logb 2 x), fun x y => skew (x ^ y), fun x y => skew (x / y)⟩

theorem skew_rounds {y : ℝ} (hy : 0 ≤ y) : Rounds (skew y) y := by
  unfold skew
  split
  · rename_i h
    exact ⟨by rw [sub_self, abs_zero]; positivity, fun k h => h⟩
  · rename_i h
    refine ⟨?_, fun k hk => absurd ⟨k, hk⟩ h⟩
    rw [show y * (1 + 1 / 2 ^ 41) - y = y * (1 / 2 ^ 41) by ring, abs_of_nonneg (by positivity)]
    have : (1 : ℝ) / 2 ^ 41 ≤ 1 / 2 ^ 40 := by norm_num
    calc y * (1 / 2 ^ 41) ≤ y * (1 / 2 ^ 40) := mul_le_mul_of_nonneg_left this hy
      _ = y / 2 ^ 40 := by ring

theorem skewLib_accurate : skewLib.Accurate :=
  ⟨fun x h1 _ => skew_rounds (Real.logb_nonneg (by norm_num) h1),
    fun x y h1 _ _ _ => skew_rounds (Real.rpow_nonneg (by linarith) _),
    fun x y h1 _ h3 _ => skew_rounds (div_nonneg (by linarith) (by linarith))⟩

/-- It is not exact: `1/3` comes out too large. -/
example : skewLib.div 1 3 ≠ 1 / 3 := by
  show skew (1 / 3) ≠ 1 / 3
  unfold skew
  rw [if_neg]
  · norm_num
  · rintro ⟨k, hk⟩
    have h1 : (1 : ℝ) = 3 * k := by rw [← hk]; norm_num
    have h2 : (1 : ℕ) = 3 * k := by exact_mod_cast h1
    omega

end DK2
