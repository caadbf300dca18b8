import Verif.PRFloat
/-!
# The rounding errors of `pageRank`
-/

namespace DK2
open DK GraphI
namespace PR
variable {F : Type} [Field F] [LinearOrder F] [IsStrictOrderedRing F]
variable {A : FArith F} {u w eta B : F} {n : Nat}

/-- `y` is a computed value for `x ≥ 0`, off by a factor up to `a` and by `b`. -/
def Rl (a b y x : F) : Prop := 0 ≤ x ∧ 0 ≤ y ∧ |y - x| ≤ (a - 1) * x + b

theorem Rl.hi {a b y x : F} (h : Rl a b y x) : y ≤ a * x + b := by
  have := (abs_le.1 h.2.2).2
  linarith

theorem Rl.mono {a b a' b' y x : F} (h : Rl a b y x) (ha : a ≤ a') (hb : b ≤ b') : Rl a' b' y x :=
  ⟨h.1, h.2.1, le_trans h.2.2 (add_le_add (mul_le_mul_of_nonneg_right (by linarith) h.1) hb)⟩

theorem Rl.refl {x : F} (h : 0 ≤ x) : Rl 1 0 x x := ⟨h, h, by simp⟩

/-- The values that occur are at most `X`, so that no operation overflows. -/
theorem Rl.le {a b y x X : F} (h : Rl a b y x) (ha : a ≤ 2) (hb : b ≤ 1) (hx : x ≤ X) : |y| ≤ 2 * X + 1 := by
  rw [abs_of_nonneg h.2.1]
  have := h.hi
  have := mul_le_mul_of_nonneg_right ha h.1
  linarith

section
variable (hA : A.Acc u w eta B) (hu : 0 ≤ u) (hu1 : u ≤ 1)
include hA hu hu1

theorem Rl.add {a b b' x y x' y' X : F} (h : Rl a b y x) (h' : Rl a b' y' x') (ha : a ≤ 2) (hb : b ≤ 1) (hb' : b' ≤ 1)
    (hX : x + x' ≤ X) (hB : 2 * X + 1 ≤ B) : Rl ((1 + u) * a) ((1 + u) * (b + b')) (A.add y y') (x + x') := by
  have e1 := hA.add y y' (le_trans (h.le ha hb (by linarith [h'.1] : x ≤ X)) hB)
    (le_trans (h'.le ha hb' (by linarith [h.1] : x' ≤ X)) hB)
  have h0 : 0 ≤ y + y' := add_nonneg h.2.1 h'.2.1
  rw [abs_of_nonneg h0] at e1
  have hhi : u * (y + y') ≤ u * (a * x + b + (a * x' + b')) :=
    mul_le_mul_of_nonneg_left (add_le_add h.hi h'.hi) hu
  refine ⟨add_nonneg h.1 h'.1, ?_, ?_⟩
  · have := (abs_le.1 e1).1
    nlinarith
  · have t1 := abs_sub_le (A.add y y') (y + y') (x + x')
    have t2 : |y + y' - (x + x')| ≤ |y - x| + |y' - x'| := by
      have : y + y' - (x + x') = (y - x) + (y' - x') := by ring
      rw [this]; exact abs_add_le _ _
    have := h.2.2
    have := h'.2.2
    linarith

/-- A product with an exact or relatively accurate factor of at most 1. -/
theorem Rl.mul {a b a' x y c y' X : F} (heta : 0 ≤ eta) (h : Rl a b y x) (h' : Rl a' 0 y' c) (hc : c ≤ 1) (ha : a ≤ 2)
    (hb0 : 0 ≤ b) (hb : b ≤ 1) (ha' : a' ≤ 2) (ha0 : 0 ≤ a') (hX : x ≤ X) (hX1 : 1 ≤ X) (hB : 2 * X + 1 ≤ B) :
    Rl ((1 + u) * (a * a')) ((1 + u) * (a' * b) + eta) (A.mul y y') (x * c) := by
  have e1 := hA.mul y y' (le_trans (h.le ha hb hX) hB)
    (le_trans (h'.le ha' (by linarith) (by linarith : c ≤ X)) hB)
  have h0 : 0 ≤ y * y' := mul_nonneg h.2.1 h'.2.1
  rw [abs_of_nonneg h0] at e1
  have hy := h.hi
  have hy' := h'.hi
  rw [add_zero] at hy'
  have hab : 0 ≤ a * x + b := le_trans h.2.1 hy
  have hac : 0 ≤ a' * c := le_trans h'.2.1 hy'
  have hprod : y * y' ≤ (a * x + b) * (a' * c) := mul_le_mul hy hy' h'.2.1 hab
  have hbc : b * (a' * c) ≤ a' * b := by
    have : a' * b * c ≤ a' * b * 1 := mul_le_mul_of_nonneg_left hc (mul_nonneg ha0 hb0)
    nlinarith
  have t1 := abs_sub_le (A.mul y y') (y * y') (x * c)
  have t2 : |y * y' - x * c| ≤ |y - x| * y' + x * |y' - c| := by
    have : y * y' - x * c = (y - x) * y' + x * (y' - c) := by ring
    rw [this]
    refine le_trans (abs_add_le _ _) ?_
    rw [abs_mul, abs_mul, abs_of_nonneg h'.2.1, abs_of_nonneg h.1]
  have t3 : |y - x| * y' ≤ ((a - 1) * x + b) * (a' * c) :=
    mul_le_mul h.2.2 hy' h'.2.1 (le_trans (abs_nonneg _) h.2.2)
  have t4 : x * |y' - c| ≤ x * ((a' - 1) * c) := by
    have := h'.2.2
    rw [add_zero] at this
    exact mul_le_mul_of_nonneg_left this h.1
  refine ⟨mul_nonneg h.1 h'.1, hA.mul_nonneg _ _ h.2.1 h'.2.1, ?_⟩
  have t5 : u * (y * y') ≤ u * ((a * x + b) * (a' * c)) := mul_le_mul_of_nonneg_left hprod hu
  have t6 : u * (b * (a' * c)) ≤ u * (a' * b) := mul_le_mul_of_nonneg_left hbc hu
  nlinarith

theorem Rl.inv {m : Nat} (hm : 0 < m) (hm2 : m ≤ 2 ^ 53) : Rl (1 + u) 0 (A.inv m) (1 / (m : F)) := by
  have h := hA.inv m hm hm2
  have h0 : (0 : F) ≤ 1 / (m : F) := by positivity
  refine ⟨h0, ?_, by linarith⟩
  have := (abs_le.1 h).1
  nlinarith

theorem Rl.one_sub {alpha : F} (ha : 0 ≤ alpha) (ha1 : alpha ≤ 1) (hB : 1 ≤ B) :
    Rl (1 + u) 0 (A.sub 1 alpha) (1 - alpha) := by
  have h := hA.sub 1 alpha (by rw [abs_one]; exact hB) (by rw [abs_of_nonneg ha]; linarith)
  have h0 : 0 ≤ 1 - alpha := by linarith
  rw [abs_of_nonneg h0] at h
  refine ⟨h0, ?_, by linarith⟩
  have := (abs_le.1 h).1
  nlinarith

end

theorem Rl.inv32 (hA : A.Acc u w eta B) (hw : 0 ≤ w) (hw1 : w ≤ 1) {m : Nat} (hm : 0 < m) (hm2 : m ≤ 2 ^ 53) :
    Rl (1 + w) 0 (A.inv32 m) (1 / (m : F)) := by
  have h := hA.inv32 m hm hm2
  have h0 : (0 : F) ≤ 1 / (m : F) := by positivity
  refine ⟨h0, ?_, by linarith⟩
  have := (abs_le.1 h).1
  nlinarith

/-! ## The loops, component by component -/

theorem fAddAt_vec {l : List F} {i : Nat} (h : i < l.length) (d : F) :
    ∃ l', fAddAt A l i d = .ok l' ∧ l'.length = l.length ∧
      ∀ v, v < l.length → (l'[v]?).getD 0 = if v = i then A.add ((l[v]?).getD 0) d else (l[v]?).getD 0 := by
  have hx : l[i]? = some l[i] := List.getElem?_eq_getElem h
  refine ⟨l.set i (A.add l[i] d), ?_, by simp, ?_⟩
  · unfold fAddAt
    rw [rd_of hx]
    simp only [Res.ok_bind]
    exact wr_of h
  · intro v hv
    rw [List.getElem?_set]
    by_cases hvi : v = i
    · subst hvi; simp [h]
    · have : ¬ i = v := fun hh => hvi hh.symm
      simp [this, hvi]

theorem fSpread_vec (d : F) : ∀ {vs : List Nat} {pr : List F}, (∀ v ∈ vs, v < pr.length) → vs.Nodup →
    ∃ pr', fSpread A d vs pr = .ok pr' ∧ pr'.length = pr.length ∧
      ∀ v, v < pr.length → (pr'[v]?).getD 0 = if v ∈ vs then A.add ((pr[v]?).getD 0) d else (pr[v]?).getD 0 := by
  intro vs
  induction vs with
  | nil => intro pr _ _; exact ⟨pr, rfl, rfl, fun v _ => by simp⟩
  | cons x vs ih =>
    intro pr h hnd
    obtain ⟨p1, a1, a2, a3⟩ := fAddAt_vec (A := A) (h x (by simp)) d
    obtain ⟨p2, b1, b2, b3⟩ := ih (pr := p1) (fun v hv => by rw [a2]; exact h v (by simp [hv])) (List.nodup_cons.1 hnd).2
    refine ⟨p2, ?_, by rw [b2, a2], fun v hv => ?_⟩
    · unfold fSpread; rw [a1]; exact b1
    · rw [b3 v (by rw [a2]; exact hv), a3 v hv]
      by_cases hvx : v = x
      · subst hvx
        simp [(List.nodup_cons.1 hnd).1]
      · simp [hvx]

/-- The assumptions of a sweep: the error `a` of the added terms, growing by `(1+u)^2` for each vertex, stays below 2. -/
structure Cfg (A : FArith F) (u w eta B : F) (n : Nat) (alpha : F) : Prop where
  acc : A.Acc u w eta B
  u0 : 0 ≤ u
  w0 : 0 ≤ w
  eta0 : 0 ≤ eta
  n0 : 0 < n
  n53 : n ≤ 2 ^ 53
  a0 : 0 ≤ alpha
  a1 : alpha < 1
  two : (1 + u) ^ (3 * n + 4) * (1 + w) ≤ 2
  small : 34 * (n : F) * eta ≤ 1

namespace Cfg
variable {alpha : F} (c : Cfg A u w eta B n alpha)
include c

theorem w1 : w ≤ 1 := by
  have h1 : (1 : F) ≤ (1 + u) ^ (3 * n + 4) := one_le_pow₀ (by linarith [c.u0])
  have h2 := c.two
  have := mul_le_mul_of_nonneg_right h1 (by linarith [c.w0] : (0 : F) ≤ 1 + w)
  linarith

theorem pow_le {j : Nat} (hj : j ≤ 3 * n + 4) : (1 + u) ^ j ≤ 2 := by
  have h1 : (1 + u) ^ j ≤ (1 + u) ^ (3 * n + 4) := pow_le_pow_right₀ (by linarith [c.u0]) hj
  have h2 : (0 : F) ≤ (1 + u) ^ (3 * n + 4) := by have := c.u0; positivity
  nlinarith [c.two, c.w0]

theorem pow_w {j : Nat} (hj : j ≤ 3 * n + 4) : (1 + u) ^ j * (1 + w) ≤ 2 := by
  have h1 : (1 + u) ^ j ≤ (1 + u) ^ (3 * n + 4) := pow_le_pow_right₀ (by linarith [c.u0]) hj
  exact le_trans (mul_le_mul_of_nonneg_right h1 (by linarith [c.w0])) c.two

theorem u1 : u ≤ 1 := by
  have := c.pow_le (j := 1) (by have := c.n0; omega)
  rw [pow_one] at this
  linarith

theorem eta1 : 34 * eta ≤ 1 := by
  have h1 : (1 : F) ≤ (n : F) := by exact_mod_cast c.n0
  have := c.small
  have := mul_le_mul_of_nonneg_right h1 c.eta0
  linarith

end Cfg

section
variable {alpha : F} (c : Cfg A u w eta B n alpha)
include c

/-- `alpha * old[i] * k`. -/
theorem rl_share {x X : F} {m : Nat} (hm : 0 < m) (hm2 : m ≤ 2 ^ 53) (hx : 0 ≤ x) (hX : x ≤ X) (hX1 : 1 ≤ X) (hB : 2 * X + 1 ≤ B) :
    Rl ((1 + u) ^ (n + 4) * (1 + w)) (5 * eta) (A.mul (A.mul alpha x) (A.inv32 m)) (alpha * x * (1 / (m : F))) := by
  have hu := c.u0
  have hw := c.w0
  have he := c.eta0
  have h1 : Rl ((1 + u) * (1 * 1)) ((1 + u) * (1 * 0) + eta) (A.mul alpha x) (alpha * x) := by
    have e1 := c.acc.mul alpha x (by rw [abs_of_nonneg c.a0]; linarith [c.a1]) (by rw [abs_of_nonneg hx]; linarith)
    have h0 : 0 ≤ alpha * x := mul_nonneg c.a0 hx
    refine ⟨h0, c.acc.mul_nonneg _ _ c.a0 hx, ?_⟩
    rw [abs_of_nonneg h0] at e1
    linarith
  have h1' : Rl (1 + u) eta (A.mul alpha x) (alpha * x) := h1.mono (by linarith) (by linarith)
  have hm1 : (1 : F) / (m : F) ≤ 1 := by
    have : (1 : F) ≤ (m : F) := by exact_mod_cast hm
    rw [div_le_one (by linarith)]; exact this
  have h2 := Rl.mul c.acc c.u0 c.u1 c.eta0 h1' (Rl.inv32 c.acc c.w0 c.w1 hm hm2) hm1 (by linarith [c.u1]) c.eta0
    (by linarith [c.eta1]) (by linarith [c.w1]) (by linarith) (X := X)
    (by have := mul_le_mul_of_nonneg_right c.a1.le hx; linarith) hX1 hB
  refine h2.mono ?_ ?_
  · have h3 : (1 + u) ^ 2 ≤ (1 + u) ^ (n + 4) := pow_le_pow_right₀ (by linarith) (by omega)
    have := mul_le_mul_of_nonneg_right h3 (by linarith : (0 : F) ≤ 1 + w)
    nlinarith
  · have := c.u1
    have := c.w1
    have h5 : (1 + w) * eta ≤ 2 * eta := mul_le_mul_of_nonneg_right (by linarith) he
    have h6 : (1 + u) * ((1 + w) * eta) ≤ 2 * (2 * eta) :=
      mul_le_mul (by linarith) h5 (by positivity) (by linarith)
    linarith

/-- `dangling_sum * (1/N) + (1 - alpha) * (1/N)`. -/
theorem rl_const {d s X : F} (hd : Rl ((1 + u) ^ n) 0 d s) (hX : s ≤ X) (hX1 : 2 ≤ X) (hB : 2 * X + 1 ≤ B) :
    Rl ((1 + u) ^ (n + 4) * (1 + w)) (12 * eta)
      (A.add (A.mul (A.mul d alpha) (A.inv n)) (A.mul (A.sub 1 alpha) (A.inv n)))
      (s * alpha * (1 / (n : F)) + (1 - alpha) * (1 / (n : F))) := by
  have hu := c.u0
  have hw := c.w0
  have he := c.eta0
  have hn1 : (1 : F) / (n : F) ≤ 1 := by
    have : (1 : F) ≤ (n : F) := by exact_mod_cast c.n0
    rw [div_le_one (by linarith)]; exact this
  have hn0 : (0 : F) ≤ 1 / (n : F) := by positivity
  have hinv := Rl.inv c.acc c.u0 c.u1 c.n0 c.n53
  have h1 := Rl.mul c.acc c.u0 c.u1 c.eta0 hd (Rl.refl c.a0) c.a1.le (c.pow_le (by omega)) (le_refl 0) (by norm_num)
    (by norm_num) (by norm_num) hX (by linarith) hB
  have h1' : Rl ((1 + u) ^ (n + 1)) eta (A.mul d alpha) (s * alpha) :=
    h1.mono (by rw [pow_succ]; linarith) (by linarith)
  have hsa : s * alpha ≤ s := by
    have := mul_le_mul_of_nonneg_left c.a1.le hd.1
    linarith
  have h2 := Rl.mul c.acc c.u0 c.u1 c.eta0 h1' hinv hn1 (c.pow_le (by omega)) c.eta0 (by linarith [c.eta1])
    (by linarith [c.u1]) (by linarith) (X := X) (by linarith) (by linarith) hB
  have h2' : Rl ((1 + u) ^ (n + 3)) (5 * eta) (A.mul (A.mul d alpha) (A.inv n)) (s * alpha * (1 / (n : F))) := by
    refine h2.mono (le_of_eq (by ring)) ?_
    have h5 : (1 + u) * eta ≤ 2 * eta := mul_le_mul_of_nonneg_right (by linarith [c.u1]) he
    have h6 : (1 + u) * ((1 + u) * eta) ≤ 2 * (2 * eta) :=
      mul_le_mul (by linarith [c.u1]) h5 (by positivity) (by linarith)
    linarith
  have h3 := Rl.mul c.acc c.u0 c.u1 c.eta0 (Rl.one_sub c.acc c.u0 c.u1 c.a0 c.a1.le (by linarith)) hinv hn1
    (by linarith [c.u1]) (le_refl 0) (by norm_num) (by linarith [c.u1]) (by linarith) (X := X) (by linarith [c.a0])
    (by linarith) hB
  have h3' : Rl ((1 + u) ^ (n + 3)) eta (A.mul (A.sub 1 alpha) (A.inv n)) ((1 - alpha) * (1 / (n : F))) := by
    refine h3.mono ?_ (by simp)
    have : (1 + u) * ((1 + u) * (1 + u)) = (1 + u) ^ 3 := by ring
    rw [this]
    exact pow_le_pow_right₀ (by linarith) (by omega)
  have h4 := Rl.add c.acc c.u0 c.u1 h2' h3' (c.pow_le (by omega)) (by linarith [c.eta1]) (by linarith [c.eta1])
    (X := X) (by
      have q1 := mul_le_mul_of_nonneg_left hn1 (mul_nonneg hd.1 c.a0)
      have q2 := mul_le_mul_of_nonneg_left hn1 (by linarith [c.a1] : (0 : F) ≤ 1 - alpha)
      have q3 : s * alpha + (1 - alpha) ≤ X := by
        have := c.a0; have := c.a1
        have : s * alpha ≤ X * alpha := mul_le_mul_of_nonneg_right hX c.a0
        nlinarith
      linarith) hB
  refine h4.mono ?_ ?_
  · have : (1 + u) * (1 + u) ^ (n + 3) = (1 + u) ^ (n + 4) := by ring
    rw [this]
    have : (0 : F) ≤ (1 + u) ^ (n + 4) := by positivity
    nlinarith
  · have : (1 + u) * (5 * eta + eta) ≤ 2 * (5 * eta + eta) := mul_le_mul_of_nonneg_right (by linarith [c.u1]) (by linarith)
    linarith

/-- `dangling_sum`. -/
theorem rl_dang {old : List F} (hpos : ∀ k : Nat, 0 ≤ (old[k]?).getD 0) {X : F} (hB : 2 * X + 1 ≤ B) :
    ∀ {ks : List Nat} {acc s : F} {j : Nat}, (∀ k ∈ ks, k < old.length) → Rl ((1 + u) ^ j) 0 acc s →
      j + ks.length ≤ n → s + (ks.map (fun k => (old[k]?).getD 0)).sum ≤ X →
      ∃ d, fDang A old ks acc = .ok d ∧ Rl ((1 + u) ^ (j + ks.length)) 0 d (s + (ks.map (fun k => (old[k]?).getD 0)).sum) := by
  intro ks
  induction ks with
  | nil => intro acc s j _ h _ _; exact ⟨acc, rfl, by simpa using h⟩
  | cons k ks ih =>
    intro acc s j hk h hj hX
    have hkl : k < old.length := hk k (by simp)
    have hx : old[k]? = some old[k] := List.getElem?_eq_getElem hkl
    have hu := c.u0
    rw [List.map_cons, List.sum_cons, ← add_assoc] at hX
    have hsum : 0 ≤ (ks.map (fun k => (old[k]?).getD 0)).sum := List.sum_nonneg (by
      intro x hx
      obtain ⟨i, _, rfl⟩ := List.mem_map.1 hx
      exact hpos i)
    simp only [List.length_cons] at hj
    have h1 := Rl.add c.acc c.u0 c.u1 h ((Rl.refl (hpos k)).mono (one_le_pow₀ (by linarith) : (1 : F) ≤ (1 + u) ^ j) (le_refl 0))
      (c.pow_le (by omega)) (by norm_num) (by norm_num) (X := X) (by linarith) hB
    have h1' : Rl ((1 + u) ^ (j + 1)) 0 (A.add acc ((old[k]?).getD 0)) (s + (old[k]?).getD 0) :=
      h1.mono (le_of_eq (by ring)) (by simp)
    obtain ⟨d, d1, d2⟩ := ih (fun k hk' => hk k (by simp [hk'])) h1' (by omega) hX
    refine ⟨d, ?_, ?_⟩
    · unfold fDang
      rw [rd_of hx]
      simp only [Res.ok_bind]
      rw [hx] at d1
      exact d1
    · rw [List.map_cons, List.sum_cons, ← add_assoc, List.length_cons]
      have : j + (ks.length + 1) = j + 1 + ks.length := by omega
      rw [this]; exact d2

/-- `err`. -/
theorem rl_err {X : F} (hB : 2 * X + 1 ≤ B) : ∀ {l : List (F × F)} {e s : F} {j : Nat}, (∀ p ∈ l, |p.1| ≤ B ∧ |p.2| ≤ B) →
      Rl ((1 + u) ^ (j + 1)) 0 e s → j + l.length ≤ n → s + (l.map (fun p => |p.1 - p.2|)).sum ≤ X →
      Rl ((1 + u) ^ (j + l.length + 1)) 0 (l.foldl (fun e p => A.add e |A.sub p.1 p.2|) e)
        (s + (l.map (fun p => |p.1 - p.2|)).sum) := by
  intro l
  induction l with
  | nil => intro e s j _ h _ _; simpa using h
  | cons p l ih =>
    intro e s j hp h hj hX
    have hu := c.u0
    rw [List.map_cons, List.sum_cons, ← add_assoc] at hX
    have hsum : 0 ≤ (l.map (fun p => |p.1 - p.2|)).sum := List.sum_nonneg (by
      intro x hx
      obtain ⟨i, _, rfl⟩ := List.mem_map.1 hx
      exact abs_nonneg _)
    simp only [List.length_cons] at hj
    have hs := c.acc.sub p.1 p.2 (hp p (by simp)).1 (hp p (by simp)).2
    have h0 : Rl (1 + u) 0 |A.sub p.1 p.2| |p.1 - p.2| := by
      refine ⟨abs_nonneg _, abs_nonneg _, ?_⟩
      have := abs_abs_sub_abs_le_abs_sub (A.sub p.1 p.2) (p.1 - p.2)
      linarith
    have h1 := Rl.add c.acc c.u0 c.u1 h (h0.mono (by
        have : (1 + u) ^ 1 ≤ (1 + u) ^ (j + 1) := pow_le_pow_right₀ (by linarith) (by omega)
        rwa [pow_one] at this) (le_refl 0))
      (c.pow_le (by omega)) (by norm_num) (by norm_num) (X := X) (by linarith) hB
    have h1' : Rl ((1 + u) ^ (j + 1 + 1)) 0 (A.add e |A.sub p.1 p.2|) (s + |p.1 - p.2|) :=
      h1.mono (le_of_eq (by ring)) (by simp)
    have h2 := ih (j := j + 1) (fun q hq => hp q (by simp [hq])) h1' (by omega) hX
    rw [List.map_cons, List.sum_cons, ← add_assoc, List.length_cons, List.foldl_cons]
    have : j + (l.length + 1) + 1 = j + 1 + l.length + 1 := by omega
    rw [this]; exact h2

/-- The errors after `j` vertices of a sweep. -/
theorem rl_vertex {X y g x1 d1 x2 d2 : F} {j : Nat} (p1 p2 : Prop) [Decidable p1] [Decidable p2] (hj : j + 1 ≤ n)
    (h : Rl ((1 + u) ^ (n + 4 + 2 * j) * (1 + w)) (17 * j * eta * (1 + u) ^ (2 * j)) y g)
    (h1 : p1 → Rl ((1 + u) ^ (n + 4) * (1 + w)) (5 * eta) d1 x1)
    (h2 : p2 → Rl ((1 + u) ^ (n + 4) * (1 + w)) (12 * eta) d2 x2)
    (hX : g + ((if p1 then x1 else 0) + (if p2 then x2 else 0)) ≤ X) (hB : 2 * X + 1 ≤ B) :
    Rl ((1 + u) ^ (n + 4 + 2 * (j + 1)) * (1 + w)) (17 * ((j + 1 : Nat) : F) * eta * (1 + u) ^ (2 * (j + 1)))
      (if p2 then A.add (if p1 then A.add y d1 else y) d2 else (if p1 then A.add y d1 else y))
      (g + ((if p1 then x1 else 0) + (if p2 then x2 else 0))) := by
  have hu := c.u0
  have hw := c.w0
  have he := c.eta0
  have hone : (1 : F) ≤ 1 + u := by linarith
  have q1 : (1 : F) ≤ (1 + u) ^ (2 * j) := one_le_pow₀ hone
  have q2 : (1 + u) ^ (2 * j) ≤ 2 := c.pow_le (by omega)
  have hjn : ((j : Nat) : F) + 1 ≤ (n : F) := by exact_mod_cast hj
  have hj0 : (0 : F) ≤ (j : F) := Nat.cast_nonneg j
  obtain ⟨b, hb⟩ : ∃ b, b = 17 * (j : F) * eta * (1 + u) ^ (2 * j) := ⟨_, rfl⟩
  rw [← hb] at h
  have hbound : ∀ t, 0 ≤ t → t ≤ 2 → 17 * ((j : F) + 1) * eta * t ≤ 1 := by
    intro t ht0 ht2
    have h3 : 17 * ((j : F) + 1) * eta ≤ 17 * (n : F) * eta := by
      have := mul_le_mul_of_nonneg_right hjn he
      linarith
    have h4 : 17 * ((j : F) + 1) * eta * t ≤ 17 * (n : F) * eta * 2 :=
      mul_le_mul h3 ht2 ht0 (by positivity)
    have := c.small
    linarith
  have hb0 : 0 ≤ b := by rw [hb]; positivity
  have hble : b + 17 * eta ≤ 17 * ((j : F) + 1) * eta * (1 + u) ^ (2 * j) := by
    rw [hb]
    have := mul_le_mul_of_nonneg_left q1 (by linarith : (0 : F) ≤ 17 * eta)
    nlinarith
  have hb1 : b + 17 * eta ≤ 1 := le_trans hble (hbound _ (by linarith) q2)
  have hpw : (1 + u) ^ (n + 4) * (1 + w) ≤ (1 + u) ^ (n + 4 + 2 * j) * (1 + w) :=
    mul_le_mul_of_nonneg_right (pow_le_pow_right₀ hone (by omega)) (by linarith)
  -- the links
  have s1 : Rl ((1 + u) * ((1 + u) ^ (n + 4 + 2 * j) * (1 + w))) ((1 + u) * (b + 5 * eta))
      (if p1 then A.add y d1 else y) (g + (if p1 then x1 else 0)) := by
    by_cases hp : p1
    · rw [if_pos hp, if_pos hp]
      refine Rl.add c.acc c.u0 c.u1 h ((h1 hp).mono hpw (le_refl _)) (c.pow_w (by omega)) (by linarith) (by linarith)
        (X := X) ?_ hB
      rw [if_pos hp] at hX
      have : 0 ≤ (if p2 then x2 else 0) := by
        split
        · exact (h2 (by assumption)).1
        · exact le_refl _
      linarith
    · rw [if_neg hp, if_neg hp, add_zero]
      have h3 : (0 : F) ≤ (1 + u) ^ (n + 4 + 2 * j) * (1 + w) := by positivity
      refine h.mono ?_ ?_
      · nlinarith
      · nlinarith
  have e1 : (1 + u) * ((1 + u) ^ (n + 4 + 2 * j) * (1 + w)) = (1 + u) ^ (n + 4 + 2 * j + 1) * (1 + w) := by ring
  rw [e1] at s1
  have hb2 : (1 + u) * (b + 5 * eta) ≤ 1 := by
    have h3 : (1 + u) * (b + 5 * eta) ≤ (1 + u) * (17 * ((j : F) + 1) * eta * (1 + u) ^ (2 * j)) :=
      mul_le_mul_of_nonneg_left (by linarith) (by linarith)
    have h4 : (1 + u) * (17 * ((j : F) + 1) * eta * (1 + u) ^ (2 * j)) = 17 * ((j : F) + 1) * eta * (1 + u) ^ (2 * j + 1) := by ring
    rw [h4] at h3
    exact le_trans h3 (hbound _ (by positivity) (c.pow_le (by omega)))
  have s2 : Rl ((1 + u) * ((1 + u) ^ (n + 4 + 2 * j + 1) * (1 + w))) ((1 + u) * ((1 + u) * (b + 5 * eta) + 12 * eta))
      (if p2 then A.add (if p1 then A.add y d1 else y) d2 else (if p1 then A.add y d1 else y))
      (g + (if p1 then x1 else 0) + (if p2 then x2 else 0)) := by
    by_cases hp : p2
    · rw [if_pos hp, if_pos hp]
      refine Rl.add c.acc c.u0 c.u1 s1 ((h2 hp).mono (le_trans hpw ?_) (le_refl _)) (c.pow_w (by omega)) hb2
        (by linarith [c.eta1]) (X := X) ?_ hB
      · exact mul_le_mul_of_nonneg_right (pow_le_pow_right₀ hone (by omega)) (by linarith)
      · rw [if_pos hp] at hX
        linarith
    · rw [if_neg hp, if_neg hp, add_zero]
      have h3 : (0 : F) ≤ (1 + u) ^ (n + 4 + 2 * j + 1) * (1 + w) := by positivity
      have h4 : (0 : F) ≤ (1 + u) * (b + 5 * eta) := by positivity
      refine s1.mono ?_ ?_
      · nlinarith
      · nlinarith
  rw [add_assoc g] at s2
  have e2 : n + 4 + 2 * (j + 1) = n + 4 + 2 * j + 1 + 1 := by omega
  rw [e2]
  refine s2.mono (le_of_eq (by ring)) ?_
  have h5 : (1 + u) * ((1 + u) * (b + 5 * eta) + 12 * eta) ≤ (1 + u) * ((1 + u) * (b + 17 * eta)) := by
    apply mul_le_mul_of_nonneg_left _ (by linarith)
    nlinarith
  refine le_trans h5 ?_
  have h6 : (1 + u) * ((1 + u) * (b + 17 * eta)) ≤ (1 + u) * ((1 + u) * (17 * ((j : F) + 1) * eta * (1 + u) ^ (2 * j))) :=
    mul_le_mul_of_nonneg_left (mul_le_mul_of_nonneg_left hble (by linarith)) (by linarith)
  refine le_trans h6 (le_of_eq ?_)
  push_cast
  ring

/-- A sweep, or its beginning up to where the convergence test returns, against the exact sweep of the same old ranks. -/
theorem fSweep_vec {out : List (List Nat)} (hL : Links n out) (hnd : ∀ l ∈ out, l.Nodup) {conv d s X : F} {old : List F}
    (ho : old.length = n) (hpos : ∀ k : Nat, 0 ≤ (old[k]?).getD 0) (hoX : ∀ k : Nat, (old[k]?).getD 0 ≤ X)
    (hd : Rl ((1 + u) ^ n) 0 d s) (hs : s ≤ X) (hX2 : 2 ≤ X) (hB : 2 * X + 1 ≤ B) :
    ∀ {is : List Nat} {pr : List F} {g : Nat → F} {j : Nat}, (∀ i ∈ is, i < n) → pr.length = n →
      (∀ v, v < n → Rl ((1 + u) ^ (n + 4 + 2 * j) * (1 + w)) (17 * j * eta * (1 + u) ^ (2 * j)) ((pr[v]?).getD 0) (g v)) →
      j + is.length ≤ n →
      (∀ v, v < n → g v + (is.map (fun i => gain alpha (s * alpha) n out old i v)).sum ≤ X) →
      ∃ r, fSweep A alpha conv (A.mul d alpha) n out old is pr = .ok r ∧
        (∀ p, r = .inr p → p.length = n ∧
          (∀ v, v < n → Rl ((1 + u) ^ (n + 4 + 2 * (j + is.length)) * (1 + w))
            (17 * ((j + is.length : Nat) : F) * eta * (1 + u) ^ (2 * (j + is.length))) ((p[v]?).getD 0)
            (g v + (is.map (fun i => gain alpha (s * alpha) n out old i v)).sum)) ∧
          (is ≠ [] → ¬ fErr A p old < A.mul n conv)) ∧
        (∀ p, r = .inl p → p.length = n ∧ fErr A p old < A.mul n conv ∧ ∃ pre suf, is = pre ++ suf ∧
          ∀ v, v < n → Rl ((1 + u) ^ (n + 4 + 2 * (j + pre.length)) * (1 + w))
            (17 * ((j + pre.length : Nat) : F) * eta * (1 + u) ^ (2 * (j + pre.length))) ((p[v]?).getD 0)
            (g v + (pre.map (fun i => gain alpha (s * alpha) n out old i v)).sum)) := by
  have hsa : 0 ≤ s * alpha := mul_nonneg hd.1 c.a0
  have hg : ∀ i v, 0 ≤ gain alpha (s * alpha) n out old i v := by
    intro i v
    unfold gain
    have hn1 : (0 : F) ≤ 1 / (n : F) := by positivity
    refine add_nonneg (mul_nonneg (by positivity) (mul_nonneg (mul_nonneg c.a0 (hpos i)) (by positivity))) ?_
    split
    · exact add_nonneg (mul_nonneg hsa hn1) (mul_nonneg (by linarith [c.a1]) hn1)
    · exact le_refl _
  intro is
  induction is with
  | nil =>
    intro pr g j _ hp h _ _
    refine ⟨.inr pr, rfl, ?_, (fun p h => by cases h)⟩
    intro p h'; cases h'
    exact ⟨hp, fun v hv => by simpa using h v hv, fun hh => absurd rfl hh⟩
  | cons i is ih =>
    intro pr g j hi hp h hj hX
    have hin : i < n := hi i (by simp)
    have hio : i < out.length := by rw [hL.len]; exact hin
    have hiold : i < old.length := by rw [ho]; exact hin
    have ho1 : out[i]? = some out[i] := List.getElem?_eq_getElem hio
    have ho2 : old[i]? = some old[i] := List.getElem?_eq_getElem hiold
    have hnd1 : (out[i]).Nodup := hnd _ (List.getElem_mem hio)
    have htgt : ∀ v ∈ out[i], v < n := hL.tgt _ (List.getElem_mem hio)
    obtain ⟨p1, a1, a2, a3⟩ := fSpread_vec (A := A) (A.mul (A.mul alpha old[i]) (A.inv32 (out[i]).length))
      (vs := out[i]) (pr := pr) (fun v hv => by rw [hp]; exact htgt v hv) hnd1
    obtain ⟨p2, b1, b2, b3⟩ := fAddAt_vec (A := A) (l := p1) (i := i) (by rw [a2, hp]; exact hin)
      (A.add (A.mul (A.mul d alpha) (A.inv n)) (A.mul (A.sub 1 alpha) (A.inv n)))
    have hp2 : p2.length = n := by rw [b2, a2, hp]
    have hlenle : (out[i]).length ≤ n := by
      have h1 : (out[i]) ⊆ List.range n := fun v hv => List.mem_range.2 (htgt v hv)
      have := (List.subperm_of_subset hnd1 h1).length_le
      simpa using this
    have hx : (old[i]?).getD 0 = old[i] := by rw [ho2]; rfl
    simp only [List.length_cons] at hj
    have hgain : ∀ v, v < n → Rl ((1 + u) ^ (n + 4 + 2 * (j + 1)) * (1 + w))
        (17 * ((j + 1 : Nat) : F) * eta * (1 + u) ^ (2 * (j + 1))) ((p2[v]?).getD 0)
        (g v + gain alpha (s * alpha) n out old i v) := by
      intro v hv
      have hge : gain alpha (s * alpha) n out old i v =
          (if v ∈ out[i] then alpha * old[i] * (1 / ((out[i]).length : F)) else 0) +
            (if v = i then s * alpha * (1 / (n : F)) + (1 - alpha) * (1 / (n : F)) else 0) := by
        unfold gain
        rw [ho1, ho2]
        simp only [Option.getD_some]
        rw [List.Nodup.count hnd1]
        by_cases hvo : v ∈ out[i]
        · rw [if_pos hvo, if_pos hvo]; simp
        · rw [if_neg hvo, if_neg hvo]; simp
      have hXv := hX v hv
      rw [List.map_cons, List.sum_cons, ← add_assoc] at hXv
      have hrest : 0 ≤ (is.map (fun i => gain alpha (s * alpha) n out old i v)).sum := List.sum_nonneg (by
        intro x hx
        obtain ⟨k, _, rfl⟩ := List.mem_map.1 hx
        exact hg k v)
      rw [hge] at hXv ⊢
      rw [b3 v (by rw [a2, hp]; exact hv), a3 v (by rw [hp]; exact hv)]
      refine rl_vertex c (v ∈ out[i]) (v = i) (by omega) (h v hv) (fun hvo => ?_) (fun _ => ?_) (X := X) (by linarith) hB
      · exact rl_share c (List.length_pos_of_mem hvo) (le_trans hlenle c.n53) (by rw [← hx]; exact hpos i)
          (by rw [← hx]; exact hoX i) (by linarith) hB
      · exact rl_const c hd hs hX2 hB
    unfold fSweep
    rw [rd_of ho1, rd_of ho2]
    simp only [Res.ok_bind, a1, b1]
    by_cases hc : fErr A p2 old < A.mul n conv
    · rw [if_pos hc]
      refine ⟨.inl p2, rfl, (fun p h => by cases h), ?_⟩
      intro p h'; cases h'
      exact ⟨hp2, hc, [i], is, rfl, fun v hv => by simpa using hgain v hv⟩
    · rw [if_neg hc]
      obtain ⟨r, c1, c2, c3⟩ := ih (pr := p2) (g := fun v => g v + gain alpha (s * alpha) n out old i v) (j := j + 1)
        (fun k hk => hi k (by simp [hk])) hp2 hgain (by omega) (fun v hv => by
          have := hX v hv
          rw [List.map_cons, List.sum_cons, ← add_assoc] at this
          exact this)
      refine ⟨r, c1, ?_, ?_⟩
      · rintro p rfl
        obtain ⟨d1, d2, d3⟩ := c2 p rfl
        refine ⟨d1, fun v hv => ?_, fun _ => ?_⟩
        · have := d2 v hv
          rw [List.map_cons, List.sum_cons, ← add_assoc, List.length_cons]
          have e : j + (is.length + 1) = j + 1 + is.length := by omega
          rw [e]; exact this
        · cases is with
          | nil =>
            have : p = p2 := by
              unfold fSweep at c1; cases c1; rfl
            rw [this]; exact hc
          | cons _ _ => exact d3 (by simp)
      · rintro p rfl
        obtain ⟨d1, d2, pre, suf, d3, d4⟩ := c3 p rfl
        refine ⟨d1, d2, i :: pre, suf, by rw [d3]; rfl, fun v hv => ?_⟩
        have := d4 v hv
        rw [List.map_cons, List.sum_cons, ← add_assoc, List.length_cons]
        have e : j + (pre.length + 1) = j + 1 + pre.length := by omega
        rw [e]; exact this

end

/-! ## One turn of the loop -/

/-- The relative error of a sweep. -/
def reps (u w : F) (n : Nat) : F := (1 + u) ^ (3 * n + 4) * (1 + w) - 1

/-- The absolute error of a sweep, due to underflow. -/
def rdel (eta : F) (n : Nat) : F := 34 * (n : F) * (n : F) * eta

section
variable {alpha : F} (c : Cfg A u w eta B n alpha)
include c

theorem reps_nonneg : 0 ≤ reps u w n := by
  have h1 : (1 : F) ≤ (1 + u) ^ (3 * n + 4) := one_le_pow₀ (by linarith [c.u0])
  unfold reps
  nlinarith [c.w0]

theorem u_le_reps : u ≤ reps u w n := by
  have h1 : (1 + u) ^ 1 ≤ (1 + u) ^ (3 * n + 4) := pow_le_pow_right₀ (by linarith [c.u0]) (by omega)
  rw [pow_one] at h1
  unfold reps
  nlinarith [c.w0, c.u0]

theorem rdel_nonneg : 0 ≤ rdel eta n := by
  unfold rdel
  have := c.eta0
  positivity

/-- The errors at the end of a sweep or before. -/
theorem rl_end {j : Nat} (hj : j ≤ n) {y x : F}
    (h : Rl ((1 + u) ^ (n + 4 + 2 * j) * (1 + w)) (17 * (j : F) * eta * (1 + u) ^ (2 * j)) y x) :
    Rl (1 + reps u w n) (34 * (n : F) * eta) y x := by
  have hu := c.u0
  have hw := c.w0
  have he := c.eta0
  refine h.mono ?_ ?_
  · unfold reps
    have : (1 + u) ^ (n + 4 + 2 * j) ≤ (1 + u) ^ (3 * n + 4) := pow_le_pow_right₀ (by linarith) (by omega)
    have := mul_le_mul_of_nonneg_right this (by linarith : (0 : F) ≤ 1 + w)
    linarith
  · have h1 : (1 + u) ^ (2 * j) ≤ 2 := c.pow_le (by omega)
    have h2 : (j : F) ≤ (n : F) := by exact_mod_cast hj
    have h3 : 17 * (j : F) * eta ≤ 17 * (n : F) * eta := by
      have := mul_le_mul_of_nonneg_right h2 he
      linarith
    have h4 : 17 * (j : F) * eta * (1 + u) ^ (2 * j) ≤ 17 * (n : F) * eta * 2 :=
      mul_le_mul h3 h1 (by positivity) (by positivity)
    linarith

/-- The computed `err` of two nonnegative vectors. -/
theorem fErr_near {X : F} {p old : List F} (hp : p.length = n) (ho : old.length = n) (hp0 : ∀ v, 0 ≤ vec n p v)
    (ho0 : ∀ v, 0 ≤ vec n old v) (hX : ∑ v, vec n p v + ∑ v, vec n old v ≤ X) (hB : 2 * X + 1 ≤ B) :
    (1 - reps u w n) * dist1 (vec n p) (vec n old) ≤ fErr A p old ∧
      fErr A p old ≤ (1 + reps u w n) * dist1 (vec n p) (vec n old) := by
  have hu := c.u0
  have hw := c.w0
  have hsp : 0 ≤ ∑ v, vec n p v := Finset.sum_nonneg (fun v _ => hp0 v)
  have hso : 0 ≤ ∑ v, vec n old v := Finset.sum_nonneg (fun v _ => ho0 v)
  have hd : prErr p old = dist1 (vec n p) (vec n old) := prErr_eq hp ho
  have hdX : dist1 (vec n p) (vec n old) ≤ X := le_trans (dist1_le_sum hp0 ho0) hX
  have hmem : ∀ {l : List F}, l.length = n → (∀ v, 0 ≤ vec n l v) → ∑ v, vec n l v ≤ X → ∀ x ∈ l, |x| ≤ B := by
    intro l hl h0 hs x hx
    obtain ⟨i, hi, rfl⟩ := List.mem_iff_getElem.1 hx
    have hiv : vec n l ⟨i, by omega⟩ = l[i] := by
      unfold vec; simp [List.getElem?_eq_getElem hi]
    have h1 := h0 ⟨i, by omega⟩
    have h2 := Finset.single_le_sum (fun v _ => h0 v) (Finset.mem_univ (⟨i, by omega⟩ : Fin n))
    rw [hiv] at h1 h2
    rw [abs_of_nonneg h1]
    linarith
  have h := rl_err c (X := X) hB (l := p.zip old) (e := 0) (s := 0) (j := 0) (fun q hq =>
      ⟨hmem hp hp0 (by linarith) _ (List.of_mem_zip hq).1, hmem ho ho0 (by linarith) _ (List.of_mem_zip hq).2⟩)
    ⟨le_refl _, le_refl _, by simp⟩ (by simp [hp, ho]) (by
      rw [zero_add]
      show prErr p old ≤ X
      rw [hd]; exact hdX)
  rw [zero_add, zero_add] at h
  have h' : Rl (1 + reps u w n) 0 (fErr A p old) (dist1 (vec n p) (vec n old)) := by
    rw [← hd]
    refine Rl.mono h ?_ (le_refl 0)
    unfold reps
    have e : (1 + u) ^ ((p.zip old).length + 1) ≤ (1 + u) ^ (3 * n + 4) :=
      pow_le_pow_right₀ (by linarith) (by simp [hp, ho]; omega)
    have : (0 : F) ≤ (1 + u) ^ (3 * n + 4) := by positivity
    nlinarith
  have h1 := (abs_le.1 h'.2.2).1
  have h2 := (abs_le.1 h'.2.2).2
  constructor <;> linarith

omit c in
/-- A sweep begins with its first vertex, whose ranks only the vertex itself and its successors see. -/
theorem fSweep_cons {out : List (List Nat)} {conv dsum : F} {old pr : List F} {i : Nat} {o : List Nat} (hio : out[i]? = some o)
    (ho : i < old.length) (hi : i < pr.length) (hnd : o.Nodup) (ht : ∀ v ∈ o, v < pr.length) :
    ∃ p, (∀ is, fSweep A alpha conv dsum n out old (i :: is) pr =
        if fErr A p old < A.mul n conv then .ok (.inl p) else fSweep A alpha conv dsum n out old is p) ∧
      ∀ v, v < pr.length → v ≠ i → v ∉ o → (p[v]?).getD 0 = (pr[v]?).getD 0 := by
  have ho2 : old[i]? = some old[i] := List.getElem?_eq_getElem ho
  obtain ⟨p1, a1, a2, a3⟩ := fSpread_vec (A := A) (A.mul (A.mul alpha old[i]) (A.inv32 o.length)) (vs := o) (pr := pr) ht hnd
  obtain ⟨p2, b1, b2, b3⟩ := fAddAt_vec (A := A) (l := p1) (i := i) (by rw [a2]; exact hi)
    (A.add (A.mul dsum (A.inv n)) (A.mul (A.sub 1 alpha) (A.inv n)))
  refine ⟨p2, fun is => ?_, fun v hv h1 h2 => ?_⟩
  · rw [fSweep, rd_of hio, rd_of ho2]
    simp only [Res.ok_bind, a1, b1]
  · rw [b3 v (by rw [a2]; exact hv), if_neg h1, a3 v hv, if_neg h2]

/-- One turn: close to the exact sweep; or stopped, and then not above it by more than the errors. With a threshold above
what one sweep can change it stops after vertex 0. -/
theorem fTurn_vec {L : Nat → List Nat} (hL : ∀ x, x < n → ∀ v ∈ L x, v < n) (hnd : ∀ x, x < n → (L x).Nodup)
    {conv X : F} {old : List F} (ho : old.length = n) (hpos : ∀ v, 0 ≤ vec n old v) (hM : ∑ v, vec n old v ≤ X) (hX2 : 2 ≤ X)
    (hdel : rdel eta n ≤ 1) (hB : 8 * X + 3 ≤ B) :
    ∃ r, fTurn A alpha conv n ((List.range n).map L) (dangling n ((List.range n).map L)) old = .ok r ∧
      (∀ p, r = .inr p → p.length = n ∧ (∀ v, 0 ≤ vec n p v) ∧
        dist1 (vec n p) (sweep n (walk n L) alpha (vec n old)) ≤
          reps u w n * (alpha * ∑ v, vec n old v + (1 - alpha)) + rdel eta n ∧
        A.mul n conv ≤ (1 + reps u w n) * dist1 (vec n p) (vec n old)) ∧
      (∀ p, r = .inl p → p.length = n ∧ (∀ v, 0 ≤ vec n p v) ∧
        (∀ v, vec n p v ≤ (1 + reps u w n) * sweep n (walk n L) alpha (vec n old) v + 34 * (n : F) * eta) ∧
        (1 - reps u w n) * dist1 (vec n p) (vec n old) < A.mul n conv) ∧
      ((1 + reps u w n) * ((1 + reps u w n) * (alpha * ∑ v, vec n old v + (1 - alpha)) + rdel eta n + ∑ v, vec n old v) <
          A.mul n conv →
        ∃ p, r = .inl p ∧ ∀ v : Fin n, (v : Nat) ≠ 0 → (v : Nat) ∉ L 0 → vec n p v = 0) ∧
      ∃ d, fDang A old (dangling n ((List.range n).map L)) 0 = .ok d ∧ |d| ≤ 2 * X + 1 ∧
        ∀ pre suf, List.range n = pre ++ suf → ∀ p, fSweep A alpha conv (A.mul d alpha) n ((List.range n).map L) old pre
          (List.replicate n 0) = .ok (.inr p) → p.length = n ∧ ∀ v : Nat, |(p[v]?).getD 0| ≤ 2 * X + 1 := by
  have hlinks : Links n ((List.range n).map L) := by
    refine ⟨by simp, ?_⟩
    intro l hl v hv
    obtain ⟨x, hx, rfl⟩ := List.mem_map.1 hl
    exact hL x (List.mem_range.1 hx) v hv
  have hW := walk_stoch (F := F) c.n0 hL
  have hu := c.u0
  have hw := c.w0
  have he := c.eta0
  have ha := c.a0
  have ha1 := c.a1
  have hr0 := reps_nonneg c
  have hd0 := rdel_nonneg c
  have hr1 : reps u w n ≤ 1 := by unfold reps; linarith [c.two]
  have hold : ∀ k : Nat, 0 ≤ (old[k]?).getD 0 := by
    intro k
    by_cases hk : k < n
    · exact hpos ⟨k, hk⟩
    · rw [List.getElem?_eq_none (by omega)]; simp
  have hsumX : ∀ k : Nat, (old[k]?).getD 0 ≤ X := by
    intro k
    by_cases hk : k < n
    · exact le_trans (Finset.single_le_sum (fun v _ => hpos v) (Finset.mem_univ (⟨k, hk⟩ : Fin n))) hM
    · rw [List.getElem?_eq_none (by omega)]; simp; linarith
  obtain ⟨s, hsdef⟩ : ∃ s, s = ((dangling n ((List.range n).map L)).map (fun k => (old[k]?).getD (0 : F))).sum := ⟨_, rfl⟩
  have hs : s ≤ X := by
    rw [hsdef]
    unfold dangling
    rw [sum_filter_ite, sum_range_fin]
    refine le_trans (Finset.sum_le_sum (fun i _ => ?_)) hM
    show (if _ then (old[(i : Nat)]?).getD 0 else 0) ≤ (old[(i : Nat)]?).getD 0
    split
    · exact le_refl _
    · exact hold i
  obtain ⟨d, hd1, hd2⟩ := rl_dang c hold (X := X) (by linarith) (ks := dangling n ((List.range n).map L)) (acc := 0) (s := 0)
    (j := 0) (fun k hk => by rw [ho]; exact List.mem_range.1 (List.mem_filter.1 hk).1) ⟨le_refl _, le_refl _, by simp⟩
    (by
      rw [zero_add]
      have := List.length_filter_le (fun i => (((((List.range n).map L)[i]?).getD ([] : List Nat))).isEmpty) (List.range n)
      simp only [List.length_range] at this
      exact this)
    (by rw [zero_add, ← hsdef]; exact hs)
  rw [zero_add, zero_add, ← hsdef] at hd2
  have hd3 : Rl ((1 + u) ^ n) 0 d s := by
    refine hd2.mono (pow_le_pow_right₀ (by linarith) ?_) (le_refl 0)
    have := List.length_filter_le (fun i => (((((List.range n).map L)[i]?).getD ([] : List Nat))).isEmpty) (List.range n)
    simp only [List.length_range] at this
    exact this
  have hgs : ∀ v : Fin n, ((List.range n).map (fun i => gain alpha (s * alpha) n ((List.range n).map L) old i v)).sum =
      sweep n (walk n L) alpha (vec n old) v := by
    intro v
    rw [hsdef]
    exact gain_sum c.n0 v
  have hsw0 : ∀ v, 0 ≤ sweep n (walk n L) alpha (vec n old) v := fun v => sweep_nonneg hW ha ha1.le hpos v
  have hsweepX : alpha * ∑ v, vec n old v + (1 - alpha) ≤ X := by
    have := mul_le_mul_of_nonneg_left hM ha
    nlinarith
  have hswX : ∀ v, sweep n (walk n L) alpha (vec n old) v ≤ X := by
    intro v
    refine le_trans (Finset.single_le_sum (fun v _ => hsw0 v) (Finset.mem_univ v)) ?_
    rw [sum_sweep c.n0 hW]
    exact hsweepX
  have hg : ∀ i v, 0 ≤ gain alpha (s * alpha) n ((List.range n).map L) old i v := by
    intro i v
    unfold gain
    have hn1 : (0 : F) ≤ 1 / (n : F) := by positivity
    refine add_nonneg (mul_nonneg (by positivity) (mul_nonneg (mul_nonneg c.a0 (hold i)) (by positivity))) ?_
    split
    · exact add_nonneg (mul_nonneg (mul_nonneg hd3.1 ha) hn1) (mul_nonneg (by linarith [c.a1]) hn1)
    · exact le_refl _
  obtain ⟨r, c1, c2, c3⟩ := fSweep_vec c hlinks (by
      intro l hl
      obtain ⟨x, hx, rfl⟩ := List.mem_map.1 hl
      exact hnd x (List.mem_range.1 hx)) (conv := conv) (X := X) ho hold hsumX hd3 hs hX2 (by linarith)
    (is := List.range n) (pr := List.replicate n 0) (g := fun _ => 0) (j := 0) (fun i hi => List.mem_range.1 hi) (by simp)
    (fun v hv => by
      have : ((List.replicate n (0 : F))[v]?).getD 0 = 0 := by simp [List.getElem?_replicate, hv]
      rw [this]
      exact ⟨le_refl _, le_refl _, by simp⟩) (by simp) (fun v hv => by
      rw [zero_add, hgs ⟨v, hv⟩]
      exact hswX _)
  have hpsum0 : ∀ p : List F, (∀ v, vec n p v ≤ (1 + reps u w n) * sweep n (walk n L) alpha (vec n old) v + 34 * (n : F) * eta) →
      ∑ v, vec n p v ≤ (1 + reps u w n) * (alpha * ∑ v, vec n old v + (1 - alpha)) + rdel eta n := by
    intro p hp
    have h1 := Finset.sum_le_sum (fun v (_ : v ∈ Finset.univ) => hp v)
    rw [Finset.sum_add_distrib, ← Finset.mul_sum, sum_sweep c.n0 hW, Finset.sum_const, Finset.card_univ, Fintype.card_fin,
      nsmul_eq_mul] at h1
    have h2 : (n : F) * (34 * (n : F) * eta) = rdel eta n := by unfold rdel; ring
    rw [h2] at h1
    exact h1
  have hpsum : ∀ p : List F, (∀ v, vec n p v ≤ (1 + reps u w n) * sweep n (walk n L) alpha (vec n old) v + 34 * (n : F) * eta) →
      ∑ v, vec n p v + ∑ v, vec n old v ≤ 4 * X := by
    intro p hp
    have h1 := Finset.sum_le_sum (fun v (_ : v ∈ Finset.univ) => hp v)
    rw [Finset.sum_add_distrib, ← Finset.mul_sum, sum_sweep c.n0 hW, Finset.sum_const, Finset.card_univ, Fintype.card_fin,
      nsmul_eq_mul] at h1
    have h2 : (n : F) * (34 * (n : F) * eta) = rdel eta n := by unfold rdel; ring
    rw [h2] at h1
    have h0 : 0 ≤ alpha * ∑ v, vec n old v + (1 - alpha) := by
      have := mul_nonneg ha (Finset.sum_nonneg (fun v (_ : v ∈ Finset.univ) => hpos v))
      linarith
    have h3 : (1 + reps u w n) * (alpha * ∑ v, vec n old v + (1 - alpha)) ≤ 2 * X :=
      mul_le_mul (by linarith) hsweepX h0 (by norm_num)
    linarith
  refine ⟨r, ?_, ?_, ?_, ?_, d, hd1, Rl.le hd3 (c.pow_le (by omega)) (by norm_num) hs, ?_⟩
  · unfold fTurn
    rw [hd1]
    exact c1
  · rintro p rfl
    obtain ⟨d1, d2, d3⟩ := c2 p rfl
    have hrl : ∀ v : Fin n, Rl (1 + reps u w n) (34 * (n : F) * eta) (vec n p v) (sweep n (walk n L) alpha (vec n old) v) := by
      intro v
      have := d2 v v.2
      rw [zero_add, zero_add, hgs v, List.length_range] at this
      exact rl_end c (le_refl n) this
    have hp0 : ∀ v, 0 ≤ vec n p v := fun v => (hrl v).2.1
    refine ⟨d1, hp0, ?_, ?_⟩
    · have h1 : dist1 (vec n p) (sweep n (walk n L) alpha (vec n old)) ≤
          ∑ v : Fin n, (reps u w n * sweep n (walk n L) alpha (vec n old) v + 34 * (n : F) * eta) := by
        refine Finset.sum_le_sum (fun v _ => ?_)
        have := (hrl v).2.2
        linarith
      rw [Finset.sum_add_distrib, ← Finset.mul_sum, sum_sweep c.n0 hW, Finset.sum_const, Finset.card_univ, Fintype.card_fin,
        nsmul_eq_mul] at h1
      have h2 : (n : F) * (34 * (n : F) * eta) = rdel eta n := by unfold rdel; ring
      rw [h2] at h1
      exact h1
    · have h1 := (fErr_near c d1 ho hp0 hpos (hpsum p (fun v => (hrl v).hi)) (by linarith)).2
      refine le_trans (not_lt.1 (d3 ?_)) h1
      intro hh
      have h5 := congrArg List.length hh
      rw [List.length_range, List.length_nil] at h5
      exact absurd c.n0 (by omega)
  · rintro p rfl
    obtain ⟨d1, d2, pre, suf, d3, d4⟩ := c3 p rfl
    have hplen : pre.length ≤ n := by
      have := congrArg List.length d3
      simp at this; omega
    have hrl : ∀ v : Fin n, 0 ≤ vec n p v ∧
        vec n p v ≤ (1 + reps u w n) * sweep n (walk n L) alpha (vec n old) v + 34 * (n : F) * eta := by
      intro v
      have := d4 v v.2
      rw [zero_add, zero_add] at this
      have h1 := rl_end c hplen this
      refine ⟨h1.2.1, le_trans h1.hi ?_⟩
      have h2 := sum_prefix_le (fun i => gain alpha (s * alpha) n ((List.range n).map L) old i v) d3 (fun i _ => hg i v)
      rw [hgs v] at h2
      have := mul_le_mul_of_nonneg_left h2 (by linarith : (0 : F) ≤ 1 + reps u w n)
      linarith
    refine ⟨d1, fun v => (hrl v).1, fun v => (hrl v).2, ?_⟩
    exact lt_of_le_of_lt (fErr_near c d1 ho (fun v => (hrl v).1) hpos (hpsum p (fun v => (hrl v).2)) (by linarith)).1 d2
  · intro hbig
    obtain ⟨m, hm⟩ := Nat.exists_eq_succ_of_ne_zero (Nat.pos_iff_ne_zero.1 c.n0)
    have hrange : List.range n = 0 :: (List.range m).map Nat.succ := by rw [hm, List.range_succ_eq_map]
    have hz : ∀ v : Nat, ((List.replicate n (0 : F))[v]?).getD 0 = 0 := by
      intro v; rw [List.getElem?_replicate]; split <;> rfl
    obtain ⟨p, f1, f2⟩ := fSweep_cons (A := A) (n := n) (alpha := alpha) (conv := conv) (dsum := A.mul d alpha)
      (out := (List.range n).map L) (old := old) (pr := List.replicate n 0) (i := 0) (o := L 0) (by simp [c.n0])
      (by rw [ho]; exact c.n0) (by simp [c.n0]) (hnd 0 c.n0) (by simpa using hL 0 c.n0)
    obtain ⟨r', g1, g2, g3⟩ := fSweep_vec c hlinks (by
        intro l hl
        obtain ⟨x, hx, rfl⟩ := List.mem_map.1 hl
        exact hnd x (List.mem_range.1 hx)) (conv := conv) (X := X) ho hold hsumX hd3 hs hX2 (by linarith)
      (is := [0]) (pr := List.replicate n 0) (g := fun _ => 0) (j := 0) (fun i hi => by simp at hi; rw [hi]; exact c.n0)
      (by simp)
      (fun v hv => by
        rw [hz]
        exact ⟨le_refl _, le_refl _, by simp⟩) (by have := c.n0; simp; omega) (fun v hv => by
        rw [zero_add]
        have h2 := sum_prefix_le (fun i => gain alpha (s * alpha) n ((List.range n).map L) old i v) (pre := [0]) hrange
          (fun i _ => hg i v)
        refine le_trans h2 ?_
        rw [hgs ⟨v, hv⟩]
        exact hswX _)
    have hshape : p.length = n ∧ ∃ pre suf, [0] = pre ++ suf ∧ ∀ v, v < n → Rl ((1 + u) ^ (n + 4 + 2 * (0 + pre.length)) * (1 + w))
            (17 * ((0 + pre.length : Nat) : F) * eta * (1 + u) ^ (2 * (0 + pre.length))) ((p[v]?).getD 0)
            (0 + (pre.map (fun i => gain alpha (s * alpha) n ((List.range n).map L) old i v)).sum) := by
      rw [f1] at g1
      by_cases hc : fErr A p old < A.mul n conv
      · rw [if_pos hc] at g1; cases g1
        obtain ⟨d1, _, pre, suf, d3, d4⟩ := g3 p rfl
        exact ⟨d1, pre, suf, d3, d4⟩
      · rw [if_neg hc] at g1
        unfold fSweep at g1
        cases g1
        obtain ⟨d1, d2, _⟩ := g2 p rfl
        exact ⟨d1, [0], [], rfl, d2⟩
    obtain ⟨d1, pre, suf, d3, d4⟩ := hshape
    have hplen : pre.length ≤ n := by
      have h5 := congrArg List.length d3
      have := c.n0
      simp at h5; omega
    have hrl : ∀ v : Fin n, 0 ≤ vec n p v ∧
        vec n p v ≤ (1 + reps u w n) * sweep n (walk n L) alpha (vec n old) v + 34 * (n : F) * eta := by
      intro v
      have := d4 v v.2
      rw [zero_add, zero_add] at this
      have h1 := rl_end c hplen this
      refine ⟨h1.2.1, le_trans h1.hi ?_⟩
      have h2 := sum_prefix_le (fun i => gain alpha (s * alpha) n ((List.range n).map L) old i v)
        (l := List.range n) (pre := pre) (suf := suf ++ (List.range m).map Nat.succ)
        (by rw [← List.append_assoc, ← d3, hrange]; rfl) (fun i _ => hg i v)
      rw [hgs v] at h2
      have := mul_le_mul_of_nonneg_left h2 (by linarith : (0 : F) ≤ 1 + reps u w n)
      linarith
    have h5 := (fErr_near c d1 ho (fun v => (hrl v).1) hpos (hpsum p (fun v => (hrl v).2)) (by linarith)).2
    have h6 := le_trans (dist1_le_sum (fun v => (hrl v).1) hpos)
      (add_le_add_left (hpsum0 p (fun v => (hrl v).2)) (∑ v, vec n old v))
    have h7 := mul_le_mul_of_nonneg_left h6 (by linarith : 0 ≤ 1 + reps u w n)
    have hlt : fErr A p old < A.mul n conv := lt_of_le_of_lt (le_trans h5 h7) hbig
    have h8 := f1 ((List.range m).map Nat.succ)
    rw [if_pos hlt, ← hrange, c1] at h8
    injection h8 with h8
    refine ⟨p, h8, fun v h1 h2 => ?_⟩
    have := f2 v (by simp) h1 h2
    rw [hz] at this
    exact this
  · intro pre suf hps p hp
    have hplen : pre.length ≤ n := by
      have := congrArg List.length hps
      simp at this; omega
    have hmem : ∀ i ∈ pre, i < n := fun i hi => List.mem_range.1 (by rw [hps]; exact List.mem_append_left _ hi)
    have hpX : ∀ v, v < n → 0 + (pre.map (fun i => gain alpha (s * alpha) n ((List.range n).map L) old i v)).sum ≤ X := by
      intro v hv
      rw [zero_add]
      refine le_trans (sum_prefix_le (fun i => gain alpha (s * alpha) n ((List.range n).map L) old i v) hps
        (fun i _ => hg i v)) ?_
      rw [hgs ⟨v, hv⟩]
      exact hswX _
    obtain ⟨r', g1, g2, _⟩ := fSweep_vec c hlinks (by
        intro l hl
        obtain ⟨x, hx, rfl⟩ := List.mem_map.1 hl
        exact hnd x (List.mem_range.1 hx)) (conv := conv) (X := X) ho hold hsumX hd3 hs hX2 (by linarith)
      (is := pre) (pr := List.replicate n 0) (g := fun _ => 0) (j := 0) hmem (by simp)
      (fun v hv => by
        have : ((List.replicate n (0 : F))[v]?).getD 0 = 0 := by simp [hv]
        rw [this]
        exact ⟨le_refl _, le_refl _, by simp⟩) (by omega) hpX
    rw [hp] at g1
    cases g1
    obtain ⟨d1, d2, _⟩ := g2 p rfl
    refine ⟨d1, fun v => ?_⟩
    by_cases hv : v < n
    · have h1 := rl_end c (by omega) (d2 v hv)
      refine Rl.le h1 (by linarith) (le_trans (le_of_eq rfl) c.small) (hpX v hv)
    · rw [List.getElem?_eq_none (by omega)]
      simp
      linarith

/-! ## The loop -/

/-- A stopped vector, with errors. -/
theorem fStopped_near {W : Nat → Nat → F} (hW : Stoch n W) {r : Fin n → F} (hr : IsPageRank n W alpha r)
    {p old : Fin n → F} {X mu d eps b : F} (hp0 : ∀ v, 0 ≤ old v) (heps : 0 ≤ eps) (hb : 0 ≤ b)
    (hMX : alpha * ∑ v, old v + (1 - alpha) ≤ X) (hM : 1 - mu ≤ ∑ v, old v)
    (hd : dist1 p old ≤ d) (hle : ∀ v, p v ≤ (1 + eps) * sweep n W alpha old v + b) :
    (1 - alpha) * dist1 p r ≤ (1 + alpha) * d + ((1 - alpha) * mu + 2 * (eps * X + n * b)) := by
  have ha := c.a0
  have ha1 := c.a1
  have hsw0 : ∀ v, 0 ≤ sweep n W alpha old v := fun v => sweep_nonneg hW ha ha1.le hp0 v
  have hs : dist1 (sweep n W alpha old) p ≤ ∑ v, sweep n W alpha old v - ∑ v, p v + 2 * (eps * X + n * b) := by
    have h1 : dist1 (sweep n W alpha old) p ≤
        ∑ v, (sweep n W alpha old v - p v + 2 * (eps * sweep n W alpha old v + b)) := by
      refine Finset.sum_le_sum (fun v _ => ?_)
      have h2 := hle v
      have h3 : 0 ≤ eps * sweep n W alpha old v := mul_nonneg heps (hsw0 v)
      rw [abs_le]
      constructor <;> linarith
    rw [Finset.sum_add_distrib, Finset.sum_sub_distrib, ← Finset.mul_sum, Finset.sum_add_distrib, ← Finset.mul_sum,
      Finset.sum_const, Finset.card_univ, Fintype.card_fin, nsmul_eq_mul] at h1
    have h4 : eps * ∑ v, sweep n W alpha old v ≤ eps * X := by
      rw [sum_sweep c.n0 hW]
      exact mul_le_mul_of_nonneg_left hMX heps
    linarith
  rw [sum_sweep c.n0 hW] at hs
  have h1 := (abs_le.1 (abs_sum_le_dist1 p old)).1
  obtain ⟨ga, hga⟩ : ∃ ga, ga = (1 - alpha) * mu + 2 * (eps * X + n * b) := ⟨_, rfl⟩
  have h2 : dist1 (sweep n W alpha old) p ≤ d + ga := by nlinarith
  have h3 : dist1 old r ≤ dist1 old (sweep n W alpha old) + alpha * dist1 old r := by
    refine le_trans (dist1_tri old (sweep n W alpha old) r) ?_
    have := sweep_contract hW ha old r
    rw [isPageRank_iff.1 hr] at this
    linarith
  have h4 : dist1 old (sweep n W alpha old) ≤ 2 * d + ga := by
    have := dist1_tri old p (sweep n W alpha old)
    rw [dist1_comm old p, dist1_comm p (sweep n W alpha old)] at this
    linarith
  have h5 : dist1 p r ≤ dist1 (sweep n W alpha old) p + alpha * dist1 old r := by
    refine le_trans (dist1_tri p (sweep n W alpha old) r) ?_
    have := sweep_contract hW ha old r
    rw [isPageRank_iff.1 hr] at this
    rw [dist1_comm p]
    linarith
  have h6 : (1 - alpha) * dist1 p r ≤ (1 - alpha) * dist1 (sweep n W alpha old) p + alpha * ((1 - alpha) * dist1 old r) := by
    have := mul_le_mul_of_nonneg_left h5 (by linarith : (0 : F) ≤ 1 - alpha)
    linarith [mul_left_comm (1 - alpha) alpha (dist1 old r)]
  have h7 : (1 - alpha) * dist1 old r ≤ 2 * d + ga := by linarith
  have h8 : alpha * ((1 - alpha) * dist1 old r) ≤ alpha * (2 * d + ga) := mul_le_mul_of_nonneg_left h7 ha
  have h9 : (1 - alpha) * dist1 (sweep n W alpha old) p ≤ (1 - alpha) * (d + ga) :=
    mul_le_mul_of_nonneg_left h2 (by linarith)
  rw [← hga]
  linarith

/-- The error that a sweep adds. -/
def rerr (u w eta X : F) (n : Nat) : F := reps u w n * X + rdel eta n

/-- What the returned vector satisfies if the convergence test returned it. -/
def FStop (A : FArith F) (u w eta X alpha conv : F) (n : Nat) (p : List F) (r : Fin n → F) : Prop :=
  ∃ d, (1 - reps u w n) * d ≤ A.mul n conv ∧
    (1 - alpha) * dist1 (vec n p) r ≤ (1 + alpha) * d + (reps u w n + rdel eta n + 2 * rerr u w eta X n)

/-- The loop with rounding: each sweep divides the distance by `1/alpha` and adds an error. -/
theorem fLoop_near {L : Nat → List Nat} (hL : ∀ x, x < n → ∀ v ∈ L x, v < n) (hnd : ∀ x, x < n → (L x).Nodup)
    {conv X : F} (hX2 : 2 ≤ X) (he4 : 4 * reps u w n ≤ 1 - alpha) (hd4 : 4 * rdel eta n ≤ 1 - alpha) (hB : 8 * X + 3 ≤ B)
    {r : Fin n → F} (hr : IsPageRank n (walk n L) alpha r) :
    ∀ (k : Nat) (pr : List F), pr.length = n → (∀ v, 0 ≤ vec n pr v) → ∑ v, vec n pr v ≤ X →
      (1 - alpha) - (reps u w n + rdel eta n) ≤ (1 - alpha) * ∑ v, vec n pr v →
      ∃ p, fLoop A alpha conv n ((List.range n).map L) (dangling n ((List.range n).map L)) k pr = .ok p ∧
        p.length = n ∧ (∀ v, 0 ≤ vec n p v) ∧ ∑ v, vec n p v ≤ 4 * X ∧
        ((1 - alpha) * dist1 (vec n p) r ≤
            (1 - alpha) * (alpha ^ k * dist1 (vec n pr) r) + (1 - alpha ^ k) * rerr u w eta X n ∨
          FStop A u w eta X alpha conv n p r) ∧
        (∀ j, j < k → (1 + reps u w n) * ((1 + alpha) * ((1 - alpha) * (alpha ^ j * dist1 (vec n pr) r) +
            (1 - alpha ^ j) * rerr u w eta X n) + (1 - alpha) * rerr u w eta X n) < (1 - alpha) * A.mul n conv →
          FStop A u w eta X alpha conv n p r) := by
  have hW := walk_stoch (F := F) c.n0 hL
  have ha := c.a0
  have ha1 := c.a1
  have hr0 := reps_nonneg c
  have hd0 := rdel_nonneg c
  have h1a : 0 < 1 - alpha := by linarith
  intro k
  induction k with
  | zero =>
    intro pr hp h0 hM _
    refine ⟨pr, rfl, hp, h0, by linarith, Or.inl (by simp), fun j hj => absurd hj (Nat.not_lt_zero j)⟩
  | succ k ih =>
    intro pr hp h0 hM hM1
    obtain ⟨t, c1, c2, c3, _, _⟩ := fTurn_vec c hL hnd (conv := conv) hp h0 hM hX2 (by linarith) hB
    unfold fLoop
    rw [c1]
    simp only [Res.ok_bind]
    have hsumpos : 0 ≤ ∑ v, vec n pr v := Finset.sum_nonneg (fun v _ => h0 v)
    have hsX : alpha * ∑ v, vec n pr v + (1 - alpha) ≤ X := by
      have := mul_le_mul_of_nonneg_left hM ha
      nlinarith
    cases t with
    | inl p =>
      obtain ⟨d1, d2, d3, d4⟩ := c3 p rfl
      have hnear : FStop A u w eta X alpha conv n p r := by
        refine ⟨dist1 (vec n p) (vec n pr), d4.le, ?_⟩
        have := fStopped_near c hW hr (p := vec n p) (old := vec n pr) (X := X)
          (mu := (reps u w n + rdel eta n) / (1 - alpha)) (d := dist1 (vec n p) (vec n pr)) (eps := reps u w n)
          (b := 34 * (n : F) * eta) h0 hr0 (by have := c.eta0; positivity) hsX (by
            rw [sub_le_iff_le_add, ← sub_le_iff_le_add', le_div_iff₀ h1a]
            linarith) (le_refl _) d3
        rw [mul_div_cancel₀ _ h1a.ne'] at this
        have h2 : (n : F) * (34 * (n : F) * eta) = rdel eta n := by unfold rdel; ring
        rw [h2] at this
        unfold rerr
        linarith
      refine ⟨p, rfl, d1, d2, ?_, Or.inr hnear, fun _ _ _ => hnear⟩
      have h1 := Finset.sum_le_sum (fun v (_ : v ∈ Finset.univ) => d3 v)
      rw [Finset.sum_add_distrib, ← Finset.mul_sum, sum_sweep c.n0 hW, Finset.sum_const, Finset.card_univ, Fintype.card_fin,
        nsmul_eq_mul] at h1
      have h2 : (n : F) * (34 * (n : F) * eta) = rdel eta n := by unfold rdel; ring
      rw [h2] at h1
      have h4 : (1 + reps u w n) * (alpha * ∑ v, vec n pr v + (1 - alpha)) ≤ 2 * X :=
        mul_le_mul (by linarith) hsX (by nlinarith) (by norm_num)
      linarith
    | inr p =>
      obtain ⟨d1, d2, d3, d4⟩ := c2 p rfl
      have hsum := abs_le.1 (abs_sum_le_dist1 (vec n p) (sweep n (walk n L) alpha (vec n pr)))
      rw [sum_sweep c.n0 hW] at hsum
      have herr : reps u w n * (alpha * ∑ v, vec n pr v + (1 - alpha)) ≤ reps u w n * X :=
        mul_le_mul_of_nonneg_left hsX hr0
      have hstep : dist1 (vec n p) r ≤ rerr u w eta X n + alpha * dist1 (vec n pr) r := by
        refine le_trans (dist1_tri _ (sweep n (walk n L) alpha (vec n pr)) _) ?_
        have := sweep_contract hW ha (vec n pr) r
        rw [isPageRank_iff.1 hr] at this
        unfold rerr
        linarith
      have hM' : ∑ v, vec n p v ≤ X := by
        have h5 := hsum.2
        have h6 := mul_le_mul_of_nonneg_left hM ha
        have h7 : reps u w n * X ≤ (1 - alpha) / 4 * X := mul_le_mul_of_nonneg_right (by linarith) (by linarith)
        nlinarith
      have hM1' : (1 - alpha) - (reps u w n + rdel eta n) ≤ (1 - alpha) * ∑ v, vec n p v := by
        have h5 := hsum.1
        obtain ⟨S, hS⟩ : ∃ S, S = ∑ v, vec n pr v := ⟨_, rfl⟩
        rw [← hS] at h5 hM1 d3
        have h6 : (1 - reps u w n) * (alpha * S + (1 - alpha)) - rdel eta n ≤ ∑ v, vec n p v := by linarith
        have h7 : (1 - alpha) * ((1 - reps u w n) * (alpha * S + (1 - alpha)) - rdel eta n) ≤ (1 - alpha) * ∑ v, vec n p v :=
          mul_le_mul_of_nonneg_left h6 h1a.le
        refine le_trans ?_ h7
        have h8 : alpha * ((1 - alpha) - (reps u w n + rdel eta n)) ≤ alpha * ((1 - alpha) * S) :=
          mul_le_mul_of_nonneg_left hM1 ha
        have h9 : (1 - reps u w n) * (alpha * ((1 - alpha) - (reps u w n + rdel eta n)) + (1 - alpha) * (1 - alpha)) ≤
            (1 - reps u w n) * (alpha * ((1 - alpha) * S) + (1 - alpha) * (1 - alpha)) :=
          mul_le_mul_of_nonneg_left (by linarith) (by linarith)
        have h10 : 0 ≤ alpha * reps u w n * (reps u w n + rdel eta n) := by positivity
        nlinarith
      obtain ⟨p', e1, e2, e3, e3', e4, e5⟩ := ih p d1 d2 hM' hM1'
      have hpow : ∀ j, (1 - alpha) * (alpha ^ j * dist1 (vec n p) r) + (1 - alpha ^ j) * rerr u w eta X n ≤
          (1 - alpha) * (alpha ^ (j + 1) * dist1 (vec n pr) r) + (1 - alpha ^ (j + 1)) * rerr u w eta X n := by
        intro j
        have h5 := mul_le_mul_of_nonneg_left hstep (mul_nonneg h1a.le (pow_nonneg ha j))
        rw [pow_succ]
        nlinarith
      refine ⟨p', e1, e2, e3, e3', ?_, ?_⟩
      · rcases e4 with e4 | e4
        · exact Or.inl (le_trans e4 (hpow k))
        · exact Or.inr e4
      · intro j hj hlt
        cases j with
        | zero =>
          exfalso
          rw [pow_zero, one_mul, sub_self, zero_mul, add_zero] at hlt
          have h5 := dist1_tri (vec n p) r (vec n pr)
          rw [dist1_comm r] at h5
          have h6 : dist1 (vec n p) (vec n pr) ≤ (1 + alpha) * dist1 (vec n pr) r + rerr u w eta X n := by linarith
          have h7 := mul_le_mul_of_nonneg_left (mul_le_mul_of_nonneg_left h6 (by linarith : 0 ≤ 1 + reps u w n)) h1a.le
          have h8 := mul_le_mul_of_nonneg_left d4 h1a.le
          linarith
        | succ j =>
          refine e5 j (by omega) (lt_of_le_of_lt ?_ hlt)
          refine mul_le_mul_of_nonneg_left ?_ (by linarith)
          have := mul_le_mul_of_nonneg_left (hpow j) (by linarith : 0 ≤ 1 + alpha)
          linarith

end
end PR
end DK2
