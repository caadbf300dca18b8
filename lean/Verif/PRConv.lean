import Verif.PRProofs
import Mathlib.Algebra.BigOperators.Fin
import Mathlib.Algebra.BigOperators.Field
import Mathlib.Algebra.Order.BigOperators.Group.Finset
import Mathlib.LinearAlgebra.FiniteDimensional.Lemmas
/-!
# pageRank: what the returned vector approximates (C94)

The specification is the random-surfer equation; the sweeps of `pageRank` are a contraction towards its
unique solution, and a sweep that the convergence test cuts short in the middle is still close to it.
-/

namespace DK2
namespace PR
variable {F : Type} [Field F] [LinearOrder F] [IsStrictOrderedRing F]
variable {n : Nat}

/-! ## Specification -/

/-- The random surfer on vertices `0..n-1` whose links are `L`: from `u` he follows one of the links of `u`,
each with the same probability, and goes anywhere if there are none. -/
def walk (n : Nat) (L : Nat → List Nat) (u v : Nat) : F :=
  if (L u).isEmpty then 1 / (n : F) else ((L u).count v : F) / ((L u).length : F)

open Classical in
/-- The same for an edge relation: each of the successors of `u` has probability `1 / outdegree`. -/
noncomputable def walkE (n : Nat) (E : Edge → Prop) (u v : Nat) : F :=
  if ∃ w, w < n ∧ E (u, w) then
    if E (u, v) then 1 / (((List.range n).filter (fun w => decide (E (u, w)))).length : F) else 0
  else 1 / (n : F)

/-- `r` solves the PageRank equation with damping `alpha` for the surfer `W`. -/
def IsPageRank (n : Nat) (W : Nat → Nat → F) (alpha : F) (r : Fin n → F) : Prop :=
  ∀ v, r v = alpha * ∑ u, r u * W u v + (1 - alpha) * (1 / (n : F))

/-- The distance in which the code measures convergence: the sum of the absolute differences. -/
def dist1 (p q : Fin n → F) : F := ∑ v, |p v - q v|

/-- A returned vector as a function of the vertex. -/
def vec (n : Nat) (p : List F) : Fin n → F := fun v => (p[(v : Nat)]?).getD 0

open Classical in
/-- The number of vertices with a successor. -/
noncomputable def sources (n : Nat) (E : Edge → Prop) : Nat :=
  ((List.range n).filter (fun x => decide (∃ y, E (x, y)))).length

/-- `p` approximates the PageRank of the surfer `W`: the equation has exactly one solution, a probability
distribution, and `p` is within `alpha^k * c` of it or within `(1+alpha)/(1-alpha) * n * conv`; the latter
as soon as fewer than `k` sweeps bring `alpha^j * c` below `n * conv / (1+alpha)`. -/
def Approx (n : Nat) (W : Nat → Nat → F) (alpha conv : F) (k : Nat) (c : F) (p : List F) : Prop :=
  ∃ r : Fin n → F, IsPageRank n W alpha r ∧ (∀ s, IsPageRank n W alpha s → s = r) ∧
    (∀ v, 0 ≤ r v) ∧ ∑ v, r v = 1 ∧
    (dist1 (vec n p) r ≤ alpha ^ k * c ∨ (1 - alpha) * dist1 (vec n p) r < (1 + alpha) * (n * conv)) ∧
    (∀ j, j < k → (1 + alpha) * (alpha ^ j * c) < n * conv →
      (1 - alpha) * dist1 (vec n p) r < (1 + alpha) * (n * conv))

/-! ## The equation -/

/-- The surfer's probabilities. -/
structure Stoch (n : Nat) (W : Nat → Nat → F) : Prop where
  nonneg : ∀ u, u < n → ∀ v, v < n → 0 ≤ W u v
  one : ∀ u : Fin n, ∑ v : Fin n, W u v = 1

/-- One exact sweep. -/
def sweep (n : Nat) (W : Nat → Nat → F) (alpha : F) (p : Fin n → F) : Fin n → F :=
  fun v => alpha * ∑ u, p u * W u v + (1 - alpha) * (1 / (n : F))

theorem dist1_comm (p q : Fin n → F) : dist1 p q = dist1 q p :=
  Finset.sum_congr rfl (fun _ _ => abs_sub_comm _ _)

theorem dist1_tri (p q r : Fin n → F) : dist1 p r ≤ dist1 p q + dist1 q r := by
  unfold dist1
  rw [← Finset.sum_add_distrib]
  exact Finset.sum_le_sum (fun v _ => abs_sub_le _ _ _)

theorem dist1_nonneg (p q : Fin n → F) : 0 ≤ dist1 p q := Finset.sum_nonneg (fun _ _ => abs_nonneg _)

theorem eq_of_dist1 {p q : Fin n → F} (h : dist1 p q ≤ 0) : p = q := by
  have h0 := le_antisymm h (dist1_nonneg p q)
  funext v
  have := (Finset.sum_eq_zero_iff_of_nonneg (fun v _ => abs_nonneg (p v - q v))).1 h0 v (Finset.mem_univ v)
  exact sub_eq_zero.1 (abs_eq_zero.1 this)

theorem sum_walk {W : Nat → Nat → F} (hW : Stoch n W) (p : Fin n → F) :
    ∑ v : Fin n, ∑ u : Fin n, p u * W u v = ∑ u, p u := by
  rw [Finset.sum_comm]
  refine Finset.sum_congr rfl (fun u _ => ?_)
  rw [← Finset.mul_sum, hW.one u, mul_one]

/-- A sweep brings two vectors closer by the factor `alpha`. -/
theorem sweep_contract {W : Nat → Nat → F} (hW : Stoch n W) {alpha : F} (ha : 0 ≤ alpha) (p q : Fin n → F) :
    dist1 (sweep n W alpha p) (sweep n W alpha q) ≤ alpha * dist1 p q := by
  have h1 : ∀ v : Fin n, |sweep n W alpha p v - sweep n W alpha q v| ≤ alpha * ∑ u : Fin n, |p u - q u| * W u v := by
    intro v
    have : sweep n W alpha p v - sweep n W alpha q v = alpha * ∑ u : Fin n, (p u - q u) * W u v := by
      unfold sweep
      have : ∑ u : Fin n, (p u - q u) * W u v = ∑ u : Fin n, p u * W u v - ∑ u : Fin n, q u * W u v := by
        rw [← Finset.sum_sub_distrib]
        exact Finset.sum_congr rfl (fun u _ => by ring)
      rw [this]; ring
    rw [this, abs_mul, abs_of_nonneg ha]
    refine mul_le_mul_of_nonneg_left (le_trans (Finset.abs_sum_le_sum_abs _ _) ?_) ha
    refine Finset.sum_le_sum (fun u _ => ?_)
    rw [abs_mul, abs_of_nonneg (hW.nonneg u u.2 v v.2)]
  unfold dist1
  refine le_trans (Finset.sum_le_sum (fun v _ => h1 v)) ?_
  rw [← Finset.mul_sum, sum_walk hW (fun u => |p u - q u|)]

theorem isPageRank_iff {W : Nat → Nat → F} {alpha : F} {r : Fin n → F} :
    IsPageRank n W alpha r ↔ sweep n W alpha r = r :=
  ⟨fun h => funext (fun v => (h v).symm), fun h v => (congrFun h v).symm⟩

theorem pagerank_unique {W : Nat → Nat → F} (hW : Stoch n W) {alpha : F} (ha : 0 ≤ alpha) (ha1 : alpha < 1)
    {r s : Fin n → F} (hr : IsPageRank n W alpha r) (hs : IsPageRank n W alpha s) : r = s := by
  have h := sweep_contract hW ha r s
  rw [isPageRank_iff.1 hr, isPageRank_iff.1 hs] at h
  apply eq_of_dist1
  nlinarith [dist1_nonneg r s]

theorem pagerank_exists {W : Nat → Nat → F} (hW : Stoch n W) {alpha : F} (ha : 0 ≤ alpha) (ha1 : alpha < 1) :
    ∃ r : Fin n → F, IsPageRank n W alpha r := by
  let A : (Fin n → F) →ₗ[F] (Fin n → F) :=
    { toFun := fun p v => p v - alpha * ∑ u, p u * W u v
      map_add' := by
        intro p q; funext v
        have : ∑ u : Fin n, (p u + q u) * W u v = ∑ u : Fin n, p u * W u v + ∑ u : Fin n, q u * W u v := by
          rw [← Finset.sum_add_distrib]; exact Finset.sum_congr rfl (fun u _ => by ring)
        simp only [Pi.add_apply, this]; ring
      map_smul' := by
        intro c p; funext v
        have : ∑ u : Fin n, (c * p u) * W u v = c * ∑ u : Fin n, p u * W u v := by
          rw [Finset.mul_sum]; exact Finset.sum_congr rfl (fun u _ => by ring)
        simp only [Pi.smul_apply, smul_eq_mul, RingHom.id_apply, this]; ring }
  have hA : ∀ p v, A p v = p v - alpha * ∑ u, p u * W u v := fun _ _ => rfl
  have hinj : Function.Injective A := by
    intro p q hpq
    apply eq_of_dist1
    have h := sweep_contract hW ha p q
    have he : dist1 (sweep n W alpha p) (sweep n W alpha q) = dist1 p q := by
      refine Finset.sum_congr rfl (fun v _ => ?_)
      have hv := congrFun hpq v
      rw [hA, hA] at hv
      unfold sweep
      congr 1
      linear_combination -hv
    rw [he] at h
    nlinarith [dist1_nonneg p q]
  obtain ⟨r, hr⟩ := (LinearMap.injective_iff_surjective.1 hinj) (fun _ => (1 - alpha) * (1 / (n : F)))
  refine ⟨r, fun v => ?_⟩
  have := congrFun hr v
  rw [hA] at this
  linear_combination this

theorem sum_const_fin (hn : 0 < n) (c : F) : ∑ _v : Fin n, c * (1 / (n : F)) = c := by
  have : (n : F) ≠ 0 := Nat.cast_ne_zero.2 (by omega)
  rw [Finset.sum_const, Finset.card_univ, Fintype.card_fin, nsmul_eq_mul]
  field_simp

theorem sum_sweep (hn : 0 < n) {W : Nat → Nat → F} (hW : Stoch n W) (alpha : F) (p : Fin n → F) :
    ∑ v, sweep n W alpha p v = alpha * ∑ v, p v + (1 - alpha) := by
  unfold sweep
  rw [Finset.sum_add_distrib, ← Finset.mul_sum, sum_walk hW, sum_const_fin hn]

/-- The solution is a probability distribution. -/
theorem pagerank_prob (hn : 0 < n) {W : Nat → Nat → F} (hW : Stoch n W) {alpha : F} (ha : 0 ≤ alpha) (ha1 : alpha < 1)
    {r : Fin n → F} (hr : IsPageRank n W alpha r) : (∀ v, 0 ≤ r v) ∧ ∑ v, r v = 1 := by
  have hs : ∑ v, r v = 1 := by
    have h := sum_sweep hn hW alpha r
    rw [isPageRank_iff.1 hr] at h
    have h1 : (1 - alpha) ≠ 0 := by linarith
    apply mul_left_cancel₀ h1
    linear_combination h
  refine ⟨?_, hs⟩
  have hle : ∀ v, |r v| ≤ sweep n W alpha (fun u => |r u|) v := by
    intro v
    have h0 : (0 : F) ≤ (1 - alpha) * (1 / (n : F)) := mul_nonneg (by linarith) (by positivity)
    have : r v = alpha * ∑ u, r u * W u v + (1 - alpha) * (1 / (n : F)) := hr v
    rw [this]
    refine le_trans (abs_add_le _ _) ?_
    rw [abs_of_nonneg h0, abs_mul, abs_of_nonneg ha]
    unfold sweep
    refine add_le_add_left (mul_le_mul_of_nonneg_left (le_trans (Finset.abs_sum_le_sum_abs _ _) ?_) ha) _
    exact Finset.sum_le_sum (fun u _ => by rw [abs_mul, abs_of_nonneg (hW.nonneg u u.2 v v.2)])
  have h1 : ∑ v, |r v| ≤ alpha * ∑ v, |r v| + (1 - alpha) := by
    rw [← sum_sweep hn hW]; exact Finset.sum_le_sum (fun v _ => hle v)
  have h2 : ∑ v, |r v| ≤ 1 := by nlinarith
  have h3 : ∑ v, (|r v| - r v) ≤ 0 := by rw [Finset.sum_sub_distrib, hs]; linarith
  have h4 : ∀ v ∈ Finset.univ, 0 ≤ |r v| - r v := fun v _ => sub_nonneg.2 (le_abs_self _)
  intro v
  have h5 := (Finset.sum_eq_zero_iff_of_nonneg h4).1 (le_antisymm h3 (Finset.sum_nonneg h4)) v (Finset.mem_univ v)
  have h6 : |r v| = r v := by linear_combination h5
  rw [← h6]; exact abs_nonneg _

/-! ## The surfers are stochastic -/

theorem sum_count : ∀ {l : List Nat}, (∀ v ∈ l, v < n) → ∑ v : Fin n, (l.count (v : Nat) : F) = (l.length : F) := by
  intro l
  induction l with
  | nil => intro _; simp
  | cons a l ih =>
    intro h
    have ha : a < n := h a (by simp)
    have h1 : ∀ v : Fin n, (((a :: l).count (v : Nat) : Nat) : F) =
        (l.count (v : Nat) : F) + (if (⟨a, ha⟩ : Fin n) = v then 1 else 0) := by
      intro v
      rw [List.count_cons]
      by_cases hav : a = (v : Nat)
      · have : (⟨a, ha⟩ : Fin n) = v := Fin.ext hav
        simp [hav, this]
      · have : ¬ (⟨a, ha⟩ : Fin n) = v := fun hh => hav (congrArg Fin.val hh)
        simp [hav, this]
    rw [Finset.sum_congr rfl (fun v _ => h1 v), Finset.sum_add_distrib, ih (fun v hv => h v (by simp [hv]))]
    simp

theorem walk_stoch (hn : 0 < n) {L : Nat → List Nat} (hL : ∀ u, u < n → ∀ v ∈ L u, v < n) :
    Stoch n (walk (F := F) n L) := by
  constructor
  · intro u _ v _
    unfold walk
    split <;> positivity
  · intro u
    unfold walk
    by_cases h : (L u).isEmpty = true
    · simp only [h, if_true]
      have := sum_const_fin (F := F) hn 1
      simpa using this
    · simp only [h]
      have h1 : (((L u).length : Nat) : F) ≠ 0 := by
        rw [Nat.cast_ne_zero]
        intro hh
        exact h (by rw [List.length_eq_zero_iff.1 hh]; rfl)
      simp only [Bool.false_eq_true, if_false]
      rw [← Finset.sum_div, sum_count (hL u u.2)]
      exact div_self h1

/-- Without repeated links the two surfers agree. -/
theorem walk_eq {L : Nat → List Nat} {E : Edge → Prop} {u : Nat} (hnd : (L u).Nodup)
    (hm : ∀ v, v ∈ L u ↔ E (u, v)) (hr : ∀ v, E (u, v) → v < n) (v : Nat) :
    walk (F := F) n L u v = walkE n E u v := by
  classical
  unfold walk walkE
  by_cases h : (L u).isEmpty = true
  · have hL : L u = [] := List.isEmpty_iff.1 h
    have hE : ¬ ∃ w, w < n ∧ E (u, w) := by
      rintro ⟨w, _, hw⟩
      have := (hm w).2 hw
      rw [hL] at this; cases this
    rw [if_pos h, if_neg hE]
  · have hE : ∃ w, w < n ∧ E (u, w) := by
      cases hL : L u with
      | nil => rw [hL] at h; exact absurd rfl h
      | cons w l =>
        have hw : E (u, w) := (hm w).1 (by rw [hL]; simp)
        exact ⟨w, hr w hw, hw⟩
    rw [if_neg h, if_pos hE]
    have hlen : (L u).length = ((List.range n).filter (fun w => decide (E (u, w)))).length := by
      apply List.Perm.length_eq
      rw [List.perm_ext_iff_of_nodup hnd (List.nodup_range.filter _)]
      intro w
      rw [List.mem_filter, List.mem_range, hm w]
      simp only [decide_eq_true_eq]
      exact ⟨fun hw => ⟨hr w hw, hw⟩, fun hw => hw.2⟩
    rw [← hlen, List.Nodup.count hnd]
    by_cases hv : E (u, v)
    · rw [if_pos ((hm v).2 hv), if_pos hv]; simp
    · rw [if_neg (fun hh => hv ((hm v).1 hh)), if_neg hv]; simp

/-! ## The sweeps of the code -/

open GraphI

theorem vec_set {l : List F} {i : Nat} (h : i < l.length) (d : F) (v : Nat) :
    ((l.set i (l[i] + d))[v]?).getD 0 = (l[v]?).getD 0 + (if v = i then d else 0) := by
  rw [List.getElem?_set]
  by_cases hv : v = i
  · subst hv; simp [h]
  · have : ¬ i = v := fun hh => hv hh.symm
    simp [this, hv]

theorem addAt_vec {l : List F} {i : Nat} (h : i < l.length) (d : F) :
    ∃ l', addAt l i d = .ok l' ∧ l'.length = l.length ∧
      ∀ v, (l'[v]?).getD 0 = (l[v]?).getD 0 + (if v = i then d else 0) := by
  have hx : l[i]? = some l[i] := List.getElem?_eq_getElem h
  refine ⟨l.set i (l[i] + d), ?_, by simp, vec_set h d⟩
  unfold addAt
  rw [rd_of hx]
  simp only [Res.ok_bind]
  exact wr_of h

theorem spread_vec (d : F) : ∀ {vs : List Nat} {pr : List F}, (∀ v ∈ vs, v < pr.length) →
    ∃ pr', spread d vs pr = .ok pr' ∧ pr'.length = pr.length ∧
      ∀ v, (pr'[v]?).getD 0 = (pr[v]?).getD 0 + (vs.count v : F) * d := by
  intro vs
  induction vs with
  | nil => intro pr _; exact ⟨pr, rfl, rfl, fun v => by simp⟩
  | cons w vs ih =>
    intro pr h
    obtain ⟨p1, a1, a2, a3⟩ := addAt_vec (h w (by simp)) d
    obtain ⟨p2, b1, b2, b3⟩ := ih (pr := p1) (fun v hv => by rw [a2]; exact h v (by simp [hv]))
    refine ⟨p2, ?_, by rw [b2, a2], fun v => ?_⟩
    · unfold spread; rw [a1]; exact b1
    · rw [b3, a3, List.count_cons]
      by_cases hv : v = w
      · subst hv; simp; ring
      · have : ¬ w = v := fun hh => hv hh.symm
        simp [hv, this]

/-- What the turn of vertex `i` adds to the rank of `v`. -/
def gain (alpha dsum : F) (n : Nat) (out : List (List Nat)) (old : List F) (i v : Nat) : F :=
  (((out[i]?).getD []).count v : F) * (alpha * (old[i]?).getD 0 * (1 / (((out[i]?).getD []).length : F))) +
    (if v = i then dsum * (1 / (n : F)) + (1 - alpha) * (1 / (n : F)) else 0)

/-- A sweep adds the gains of a prefix of the vertices: of all of them, or of those up to where the
convergence test returns. -/
theorem prSweep_vec {out : List (List Nat)} (hL : Links n out) {alpha conv dsum : F} {old : List F}
    (ho : old.length = n) :
    ∀ {is : List Nat} {pr : List F}, (∀ i ∈ is, i < n) → pr.length = n →
      ∃ r, prSweep alpha conv dsum n out old is pr = .ok r ∧
        (∀ p, r = .inr p → p.length = n ∧
          (∀ v, (p[v]?).getD 0 = (pr[v]?).getD 0 + (is.map (fun i => gain alpha dsum n out old i v)).sum) ∧
          (is ≠ [] → ¬ prErr p old < n * conv)) ∧
        (∀ p, r = .inl p → p.length = n ∧ prErr p old < n * conv ∧ ∃ pre suf, is = pre ++ suf ∧ pre ≠ [] ∧
          ∀ v, (p[v]?).getD 0 = (pr[v]?).getD 0 + (pre.map (fun i => gain alpha dsum n out old i v)).sum) := by
  intro is
  induction is with
  | nil =>
    intro pr _ hp
    refine ⟨.inr pr, rfl, ?_, (fun p h => by cases h)⟩
    intro p h; cases h
    exact ⟨hp, fun v => by simp, fun hh => absurd rfl hh⟩
  | cons i is ih =>
    intro pr hi hp
    have hin : i < n := hi i (by simp)
    have hio : i < out.length := by rw [hL.len]; exact hin
    have hiold : i < old.length := by rw [ho]; exact hin
    have ho1 : out[i]? = some out[i] := List.getElem?_eq_getElem hio
    have ho2 : old[i]? = some old[i] := List.getElem?_eq_getElem hiold
    obtain ⟨p1, a1, a2, a3⟩ := spread_vec (alpha * old[i] * (1 / ((out[i]).length : F)))
      (vs := out[i]) (pr := pr) (fun v hv => by rw [hp]; exact hL.tgt _ (List.getElem_mem hio) v hv)
    obtain ⟨p2, b1, b2, b3⟩ := addAt_vec (l := p1) (i := i) (by rw [a2, hp]; exact hin)
      (dsum * (1 / (n : F)) + (1 - alpha) * (1 / (n : F)))
    have hp2 : p2.length = n := by rw [b2, a2, hp]
    have hgain : ∀ v, (p2[v]?).getD 0 = (pr[v]?).getD 0 + gain alpha dsum n out old i v := by
      intro v
      rw [b3, a3]
      unfold gain
      rw [ho1, ho2]
      simp only [Option.getD_some]
      ring
    unfold prSweep
    rw [rd_of ho1, rd_of ho2]
    simp only [Res.ok_bind, a1, b1]
    by_cases hc : prErr p2 old < n * conv
    · rw [if_pos hc]
      refine ⟨.inl p2, rfl, (fun p h => by cases h), ?_⟩
      intro p h; cases h
      exact ⟨hp2, hc, [i], is, rfl, by simp, fun v => by rw [hgain]; simp⟩
    · rw [if_neg hc]
      obtain ⟨r, c1, c2, c3⟩ := ih (pr := p2) (fun j hj => hi j (by simp [hj])) hp2
      refine ⟨r, c1, ?_, ?_⟩
      · rintro p rfl
        obtain ⟨d1, d2, d3⟩ := c2 p rfl
        refine ⟨d1, fun v => ?_, fun _ => ?_⟩
        · rw [d2, hgain, List.map_cons, List.sum_cons]; ring
        · cases is with
          | nil =>
            have : p = p2 := by
              unfold prSweep at c1; cases c1; rfl
            rw [this]; exact hc
          | cons _ _ => exact d3 (by simp)
      · rintro p rfl
        obtain ⟨d1, d2, pre, suf, d3, _, d4⟩ := c3 p rfl
        refine ⟨d1, d2, i :: pre, suf, by rw [d3]; rfl, by simp, fun v => ?_⟩
        rw [d4, hgain, List.map_cons, List.sum_cons]; ring

theorem sum_range_fin (f : Nat → F) : ∀ n, ((List.range n).map f).sum = ∑ i : Fin n, f i := by
  intro n
  induction n with
  | zero => simp
  | succ n ih => rw [List.range_succ, List.map_append, List.sum_append, ih, Fin.sum_univ_castSucc]; simp

theorem sum_filter_ite (q : Nat → Bool) (f : Nat → F) : ∀ l : List Nat,
    ((l.filter q).map f).sum = (l.map (fun i => if q i then f i else 0)).sum := by
  intro l
  induction l with
  | nil => rfl
  | cons a l ih =>
    by_cases h : q a = true
    · simp [h, ih]
    · simp [h, ih]

theorem prErr_eq {p old : List F} (hp : p.length = n) (ho : old.length = n) :
    prErr p old = dist1 (vec n p) (vec n old) := by
  unfold prErr dist1 vec
  rw [← sum_range_fin (fun i => |(p[i]?).getD 0 - (old[i]?).getD 0|)]
  congr 1
  apply List.ext_getElem
  · simp [hp, ho]
  · intro i h1 h2
    simp at h1
    simp [h1.1, h1.2]

/-- The gains of all the vertices make the exact sweep. -/
theorem gain_sum (hn : 0 < n) {L : Nat → List Nat} {alpha : F} {old : List F} (v : Fin n) :
    ((List.range n).map (fun i => gain alpha
        (((dangling n ((List.range n).map L)).map (fun k => (old[k]?).getD 0)).sum * alpha) n
        ((List.range n).map L) old i v)).sum =
      sweep n (walk n L) alpha (vec n old) v := by
  have hn' : (n : F) ≠ 0 := Nat.cast_ne_zero.2 (by omega)
  have hout : ∀ i : Fin n, ((((List.range n).map L)[(i : Nat)]?).getD []) = L i := by
    intro i; simp
  have hd : ((dangling n ((List.range n).map L)).map (fun k => (old[k]?).getD (0 : F))).sum =
      ∑ i : Fin n, (if (L i).isEmpty then vec n old i else 0) := by
    unfold dangling
    rw [sum_filter_ite, sum_range_fin]
    refine Finset.sum_congr rfl (fun i _ => ?_)
    rw [hout]; rfl
  rw [hd, sum_range_fin]
  have h1 : ∀ i : Fin n, gain alpha ((∑ i : Fin n, (if (L i).isEmpty then vec n old i else 0)) * alpha) n
      ((List.range n).map L) old i v =
      alpha * (if (L i).isEmpty then 0 else vec n old i * walk n L i v) +
        (if v = i then (∑ i : Fin n, (if (L i).isEmpty then vec n old i else 0)) * alpha * (1 / (n : F)) +
          (1 - alpha) * (1 / (n : F)) else 0) := by
    intro i
    unfold gain
    rw [hout]
    congr 1
    · unfold walk vec
      by_cases h : (L i).isEmpty = true
      · have : L i = [] := List.isEmpty_iff.1 h
        simp [this]
      · simp only [h, Bool.false_eq_true, if_false]
        ring
    · by_cases h : v = i
      · subst h; simp
      · have : ¬ (v : Nat) = i := fun hh => h (Fin.ext hh)
        simp [h, this]
  rw [Finset.sum_congr rfl (fun i _ => h1 i), Finset.sum_add_distrib, ← Finset.mul_sum]
  rw [Finset.sum_ite_eq]
  simp only [Finset.mem_univ, if_true]
  unfold sweep
  have h2 : ∑ u : Fin n, vec n old u * walk n L u v =
      ∑ u : Fin n, (if (L u).isEmpty then 0 else vec n old u * walk n L u v) +
        (∑ u : Fin n, (if (L u).isEmpty then vec n old u else 0)) * (1 / (n : F)) := by
    rw [Finset.sum_mul, ← Finset.sum_add_distrib]
    refine Finset.sum_congr rfl (fun u _ => ?_)
    by_cases h : (L u).isEmpty = true
    · simp [h, walk]
    · simp [h]
  rw [h2]; ring

theorem sum_prefix_le (f : Nat → F) {l pre suf : List Nat} (h : l = pre ++ suf) (hf : ∀ i ∈ l, 0 ≤ f i) :
    (pre.map f).sum ≤ (l.map f).sum := by
  rw [h, List.map_append, List.sum_append]
  have : 0 ≤ (suf.map f).sum := List.sum_nonneg (by
    intro x hx
    obtain ⟨i, hi, rfl⟩ := List.mem_map.1 hx
    exact hf i (by rw [h]; simp [hi]))
  linarith

/-- One turn of the loop: the exact sweep, or a vector below it that is close to the old one. -/
theorem prTurn_vec (hn : 0 < n) {L : Nat → List Nat} (hL : ∀ u, u < n → ∀ v ∈ L u, v < n) {alpha conv : F}
    (ha : 0 ≤ alpha) (ha1 : alpha ≤ 1) {old : List F} (ho : old.length = n) (hpos : ∀ v, 0 ≤ vec n old v) :
    ∃ r, prTurn alpha conv n ((List.range n).map L) (dangling n ((List.range n).map L)) old = .ok r ∧
      (∀ p, r = .inr p → p.length = n ∧ vec n p = sweep n (walk n L) alpha (vec n old) ∧
        n * conv ≤ dist1 (vec n p) (vec n old)) ∧
      (∀ p, r = .inl p → p.length = n ∧ dist1 (vec n p) (vec n old) < n * conv ∧ (∀ v, 0 ≤ vec n p v) ∧
        ∀ v, vec n p v ≤ sweep n (walk n L) alpha (vec n old) v) := by
  have hlinks : Links n ((List.range n).map L) := by
    refine ⟨by simp, ?_⟩
    intro l hl v hv
    obtain ⟨x, hx, rfl⟩ := List.mem_map.1 hl
    exact hL x (List.mem_range.1 hx) v hv
  have hd := danglingSum_ok (old := old) (ks := dangling n ((List.range n).map L)) (fun k hk => by
    rw [ho]; exact List.mem_range.1 (List.mem_filter.1 hk).1)
  unfold prTurn
  rw [hd]
  simp only [Res.ok_bind]
  obtain ⟨r, c1, c2, c3⟩ := prSweep_vec hlinks (alpha := alpha) (conv := conv)
    (dsum := ((dangling n ((List.range n).map L)).map (fun k => (old[k]?).getD 0)).sum * alpha) ho
    (is := List.range n) (pr := List.replicate n 0) (fun i hi => List.mem_range.1 hi) (by simp)
  have hz : ∀ v : Fin n, ((List.replicate n (0 : F))[(v : Nat)]?).getD 0 = 0 := by
    intro v; simp
  have hold : ∀ k : Nat, 0 ≤ (old[k]?).getD 0 := by
    intro k
    by_cases hk : k < n
    · exact hpos ⟨k, hk⟩
    · rw [List.getElem?_eq_none (by omega)]; simp
  have hds : 0 ≤ ((dangling n ((List.range n).map L)).map (fun k => (old[k]?).getD (0 : F))).sum * alpha := by
    refine mul_nonneg (List.sum_nonneg ?_) ha
    intro x hx
    obtain ⟨k, _, rfl⟩ := List.mem_map.1 hx
    exact hold k
  have hg : ∀ (v : Fin n) (i : Nat), 0 ≤ gain alpha
      (((dangling n ((List.range n).map L)).map (fun k => (old[k]?).getD 0)).sum * alpha) n
      ((List.range n).map L) old i v := by
    intro v i
    unfold gain
    have hn1 : (0 : F) ≤ 1 / (n : F) := by positivity
    refine add_nonneg (mul_nonneg (by positivity) (mul_nonneg (mul_nonneg ha (hold i)) (by positivity))) ?_
    split
    · exact add_nonneg (mul_nonneg hds hn1) (mul_nonneg (by linarith) hn1)
    · exact le_refl _
  refine ⟨r, c1, ?_, ?_⟩
  · rintro p rfl
    obtain ⟨d1, d2, d3⟩ := c2 p rfl
    refine ⟨d1, ?_, ?_⟩
    · funext v
      rw [← gain_sum hn v]
      show (p[(v : Nat)]?).getD 0 = _
      rw [d2, hz, zero_add]
    · rw [← prErr_eq d1 ho]
      refine not_lt.1 (d3 ?_)
      intro hh
      have := congrArg List.length hh
      simp at this; omega
  · rintro p rfl
    obtain ⟨d1, d2, pre, suf, d3, _, d4⟩ := c3 p rfl
    refine ⟨d1, by rw [← prErr_eq d1 ho]; exact d2, fun v => ?_, fun v => ?_⟩
    · show 0 ≤ (p[(v : Nat)]?).getD 0
      rw [d4, hz, zero_add]
      exact List.sum_nonneg (by
        intro x hx
        obtain ⟨i, _, rfl⟩ := List.mem_map.1 hx
        exact hg v i)
    · rw [← gain_sum hn v]
      show (p[(v : Nat)]?).getD 0 ≤ _
      rw [d4, hz, zero_add]
      exact sum_prefix_le _ d3 (fun i _ => hg v i)

theorem dist1_le_sum {p q : Fin n → F} (hp : ∀ v, 0 ≤ p v) (hq : ∀ v, 0 ≤ q v) :
    dist1 p q ≤ ∑ v, p v + ∑ v, q v := by
  unfold dist1
  rw [← Finset.sum_add_distrib]
  refine Finset.sum_le_sum (fun v _ => ?_)
  have := abs_sub_le (p v) 0 (q v)
  rw [sub_zero, zero_sub, abs_neg, abs_of_nonneg (hp v), abs_of_nonneg (hq v)] at this
  exact this

theorem abs_sum_le_dist1 (p q : Fin n → F) : |∑ v, p v - ∑ v, q v| ≤ dist1 p q := by
  rw [← Finset.sum_sub_distrib]
  exact Finset.abs_sum_le_sum_abs _ _

theorem sweep_nonneg {W : Nat → Nat → F} (hW : Stoch n W) {alpha : F} (ha : 0 ≤ alpha) (ha1 : alpha ≤ 1)
    {p : Fin n → F} (hp : ∀ v, 0 ≤ p v) (v : Fin n) : 0 ≤ sweep n W alpha p v := by
  unfold sweep
  refine add_nonneg (mul_nonneg ha (Finset.sum_nonneg (fun u _ => mul_nonneg (hp u) (hW.nonneg u u.2 v v.2)))) ?_
  exact mul_nonneg (by linarith) (by positivity)

/-- A vector on which the convergence test returned, even in the middle of a sweep, is close to the solution. -/
theorem stopped_near (hn : 0 < n) {W : Nat → Nat → F} (hW : Stoch n W) {alpha : F} (ha : 0 ≤ alpha) (ha1 : alpha < 1)
    {r : Fin n → F} (hr : IsPageRank n W alpha r) {p old : Fin n → F} {eps : F} (hM : 1 ≤ ∑ v, old v)
    (hd : dist1 p old < eps) (hle : ∀ v, p v ≤ sweep n W alpha old v) :
    (1 - alpha) * dist1 p r < (1 + alpha) * eps := by
  have hs : dist1 (sweep n W alpha old) p = ∑ v, sweep n W alpha old v - ∑ v, p v := by
    unfold dist1
    rw [← Finset.sum_sub_distrib]
    exact Finset.sum_congr rfl (fun v _ => abs_of_nonneg (sub_nonneg.2 (hle v)))
  rw [sum_sweep hn hW] at hs
  have h1 := (abs_le.1 (abs_sum_le_dist1 p old)).1
  have h2 : dist1 (sweep n W alpha old) p < eps := by nlinarith
  have h3 : dist1 old r ≤ dist1 old (sweep n W alpha old) + alpha * dist1 old r := by
    refine le_trans (dist1_tri old (sweep n W alpha old) r) ?_
    have := sweep_contract hW ha old r
    rw [isPageRank_iff.1 hr] at this
    linarith
  have h4 : dist1 old (sweep n W alpha old) < 2 * eps := by
    have := dist1_tri old p (sweep n W alpha old)
    rw [dist1_comm old p, dist1_comm p (sweep n W alpha old)] at this
    linarith
  have h5 : dist1 p r ≤ dist1 (sweep n W alpha old) p + alpha * dist1 old r := by
    refine le_trans (dist1_tri p (sweep n W alpha old) r) ?_
    have := sweep_contract hW ha old r
    rw [isPageRank_iff.1 hr] at this
    rw [dist1_comm p]
    linarith
  have h6 : (1 - alpha) * dist1 p r ≤ (1 - alpha) * dist1 (sweep n W alpha old) p + alpha * ((1 - alpha) * dist1 old r) := by
    have := mul_le_mul_of_nonneg_left h5 (by linarith : (0 : F) ≤ 1 - alpha)
    linarith [mul_left_comm (1 - alpha) alpha (dist1 old r)]
  have h7 : (1 - alpha) * dist1 old r ≤ 2 * eps := by linarith
  have h8 : alpha * ((1 - alpha) * dist1 old r) ≤ alpha * (2 * eps) := mul_le_mul_of_nonneg_left h7 ha
  have h9 : (1 - alpha) * dist1 (sweep n W alpha old) p < (1 - alpha) * eps :=
    mul_lt_mul_of_pos_left h2 (by linarith)
  linarith

/-- The loop: each full sweep divides the distance to the solution by `1/alpha`; a return from the test
leaves it below `(1+alpha)/(1-alpha) * n * conv`, and the test does return once the distance is small. -/
theorem prLoop_near (hn : 0 < n) {L : Nat → List Nat} (hL : ∀ u, u < n → ∀ v ∈ L u, v < n) {alpha conv : F}
    (ha : 0 ≤ alpha) (ha1 : alpha < 1) {r : Fin n → F} (hr : IsPageRank n (walk n L) alpha r) :
    ∀ (k : Nat) (pr : List F), pr.length = n → (∀ v, 0 ≤ vec n pr v) → 1 ≤ ∑ v, vec n pr v →
      ∃ p, prLoop alpha conv n ((List.range n).map L) (dangling n ((List.range n).map L)) k pr = .ok p ∧
        p.length = n ∧ (∀ v, 0 ≤ vec n p v) ∧
        (dist1 (vec n p) r ≤ alpha ^ k * dist1 (vec n pr) r ∨
          (1 - alpha) * dist1 (vec n p) r < (1 + alpha) * (n * conv)) ∧
        (∀ j, j < k → (1 + alpha) * (alpha ^ j * dist1 (vec n pr) r) < n * conv →
          (1 - alpha) * dist1 (vec n p) r < (1 + alpha) * (n * conv)) := by
  have hW := walk_stoch (F := F) hn hL
  intro k
  induction k with
  | zero =>
    intro pr hp h0 _
    exact ⟨pr, rfl, hp, h0, Or.inl (by simp), fun j hj => absurd hj (Nat.not_lt_zero j)⟩
  | succ k ih =>
    intro pr hp h0 hM
    obtain ⟨t, c1, c2, c3⟩ := prTurn_vec hn hL (alpha := alpha) (conv := conv) ha ha1.le hp h0
    unfold prLoop
    rw [c1]
    simp only [Res.ok_bind]
    cases t with
    | inl p =>
      obtain ⟨d1, d2, d3, d4⟩ := c3 p rfl
      have hnear := stopped_near hn hW ha ha1 hr hM d2 d4
      exact ⟨p, rfl, d1, d3, Or.inr hnear, fun _ _ _ => hnear⟩
    | inr p =>
      obtain ⟨d1, d2, d3⟩ := c2 p rfl
      have h0' : ∀ v, 0 ≤ vec n p v := fun v => by rw [d2]; exact sweep_nonneg hW ha ha1.le h0 v
      have hM' : 1 ≤ ∑ v, vec n p v := by
        rw [d2, sum_sweep hn hW]
        nlinarith
      have hstep : dist1 (vec n p) r ≤ alpha * dist1 (vec n pr) r := by
        have := sweep_contract hW ha (vec n pr) r
        rwa [isPageRank_iff.1 hr, ← d2] at this
      obtain ⟨p', e1, e2, e3, e4, e5⟩ := ih p d1 h0' hM'
      have hpow : ∀ j, alpha ^ j * dist1 (vec n p) r ≤ alpha ^ (j + 1) * dist1 (vec n pr) r := by
        intro j
        have := mul_le_mul_of_nonneg_left hstep (pow_nonneg ha j)
        rw [pow_succ]; linarith [mul_assoc (alpha ^ j) alpha (dist1 (vec n pr) r)]
      refine ⟨p', e1, e2, e3, ?_, ?_⟩
      · rcases e4 with e4 | e4
        · exact Or.inl (le_trans e4 (hpow k))
        · exact Or.inr e4
      · intro j hj hlt
        cases j with
        | zero =>
          exfalso
          rw [pow_zero, one_mul] at hlt
          have := dist1_tri (vec n p) r (vec n pr)
          rw [dist1_comm r] at this
          linarith
        | succ j =>
          refine e5 j (by omega) (lt_of_le_of_lt ?_ hlt)
          exact mul_le_mul_of_nonneg_left (hpow j) (by linarith)

theorem prSweep_head {alpha conv dsum : F} {out : List (List Nat)} {old pr p : List F} {i : Nat} {is : List Nat}
    (h : prSweep alpha conv dsum n out old [i] pr = .ok (.inl p)) :
    prSweep alpha conv dsum n out old (i :: is) pr = .ok (.inl p) := by
  unfold prSweep at h ⊢
  obtain ⟨o, h1, h⟩ := Res.bind_eq_ok.1 h
  obtain ⟨x, h2, h⟩ := Res.bind_eq_ok.1 h
  obtain ⟨p1, h3, h⟩ := Res.bind_eq_ok.1 h
  obtain ⟨p2, h4, h⟩ := Res.bind_eq_ok.1 h
  simp only [h1, h2, h3, h4, Res.ok_bind]
  by_cases hc : prErr p2 old < n * conv
  · rw [if_pos hc] at h ⊢; exact h
  · rw [if_neg hc] at h
    unfold prSweep at h; cases h

/-- The test returns after the first vertex when the whole mass is below the threshold. -/
theorem prTurn_first (hn : 0 < n) {L : Nat → List Nat} (hL : ∀ u, u < n → ∀ v ∈ L u, v < n) {alpha conv : F}
    (ha : 0 ≤ alpha) (ha1 : alpha ≤ 1) {old : List F} (ho : old.length = n) (hpos : ∀ v, 0 ≤ vec n old v)
    (hbig : (1 + alpha) * ∑ v, vec n old v + (1 - alpha) < n * conv) :
    ∃ p, prTurn alpha conv n ((List.range n).map L) (dangling n ((List.range n).map L)) old = .ok (.inl p) ∧
      p.length = n ∧ ∀ v : Fin n, (v : Nat) ≠ 0 → (v : Nat) ∉ L 0 → vec n p v = 0 := by
  have hlinks : Links n ((List.range n).map L) := by
    refine ⟨by simp, ?_⟩
    intro l hl v hv
    obtain ⟨x, hx, rfl⟩ := List.mem_map.1 hl
    exact hL x (List.mem_range.1 hx) v hv
  have hW := walk_stoch (F := F) hn hL
  obtain ⟨n, rfl⟩ := Nat.exists_eq_succ_of_ne_zero (Nat.pos_iff_ne_zero.1 hn)
  have hd := danglingSum_ok (old := old) (ks := dangling (n + 1) ((List.range (n + 1)).map L)) (fun k hk => by
    rw [ho]; exact List.mem_range.1 (List.mem_filter.1 hk).1)
  have hz : ∀ v : Fin (n + 1), ((List.replicate (n + 1) (0 : F))[(v : Nat)]?).getD 0 = 0 := by
    intro v; rw [List.getElem?_replicate]; split <;> rfl
  -- the first vertex alone
  obtain ⟨t, c1, c2, c3⟩ := prSweep_vec hlinks (alpha := alpha) (conv := conv)
    (dsum := ((dangling (n + 1) ((List.range (n + 1)).map L)).map (fun k => (old[k]?).getD 0)).sum * alpha) ho
    (is := [0]) (pr := List.replicate (n + 1) 0) (fun i hi => by simp at hi; omega) (by simp)
  have hval : ∀ p, (t = .inl p ∨ t = .inr p) → p.length = n + 1 ∧ ∀ v : Fin (n + 1), vec (n + 1) p v = gain alpha
      (((dangling (n + 1) ((List.range (n + 1)).map L)).map (fun k => (old[k]?).getD 0)).sum * alpha) (n + 1)
      ((List.range (n + 1)).map L) old 0 v := by
    rintro p (rfl | rfl)
    · obtain ⟨d1, _, pre, suf, d3, d4, d5⟩ := c3 p rfl
      have hpre : pre = [0] := by
        cases pre with
        | nil => exact absurd rfl d4
        | cons a pre =>
          simp only [List.cons_append, List.cons.injEq] at d3
          have := d3.2
          rw [← d3.1]
          cases pre with
          | nil => rfl
          | cons _ _ => simp at this
      refine ⟨d1, fun v => ?_⟩
      show (p[(v : Nat)]?).getD 0 = _
      rw [d5, hz, hpre]; simp
    · obtain ⟨d1, d2, _⟩ := c2 p rfl
      refine ⟨d1, fun v => ?_⟩
      show (p[(v : Nat)]?).getD 0 = _
      rw [d2, hz]; simp
  -- it lies below the full sweep
  have hold : ∀ k : Nat, 0 ≤ (old[k]?).getD 0 := by
    intro k
    by_cases hk : k < n + 1
    · exact hpos ⟨k, hk⟩
    · rw [List.getElem?_eq_none (by omega)]; simp
  have hds : 0 ≤ ((dangling (n + 1) ((List.range (n + 1)).map L)).map (fun k => (old[k]?).getD (0 : F))).sum * alpha := by
    refine mul_nonneg (List.sum_nonneg ?_) ha
    intro x hx
    obtain ⟨k, _, rfl⟩ := List.mem_map.1 hx
    exact hold k
  have hg : ∀ (v : Fin (n + 1)) (i : Nat), 0 ≤ gain alpha
      (((dangling (n + 1) ((List.range (n + 1)).map L)).map (fun k => (old[k]?).getD 0)).sum * alpha) (n + 1)
      ((List.range (n + 1)).map L) old i v := by
    intro v i
    unfold gain
    have hn1 : (0 : F) ≤ 1 / ((n + 1 : Nat) : F) := by positivity
    refine add_nonneg (mul_nonneg (by positivity) (mul_nonneg (mul_nonneg ha (hold i)) (by positivity))) ?_
    split
    · exact add_nonneg (mul_nonneg hds hn1) (mul_nonneg (by linarith) hn1)
    · exact le_refl _
  have hzero : ∀ v : Fin (n + 1), (v : Nat) ≠ 0 → (v : Nat) ∉ L 0 → gain alpha
      (((dangling (n + 1) ((List.range (n + 1)).map L)).map (fun k => (old[k]?).getD 0)).sum * alpha) (n + 1)
      ((List.range (n + 1)).map L) old 0 v = 0 := by
    intro v h1 h2
    unfold gain
    have : ((((List.range (n + 1)).map L)[0]?).getD []) = L 0 := by simp
    rw [this, List.count_eq_zero.2 h2, if_neg h1]
    simp
  have hlt : ∀ p, (t = .inl p ∨ t = .inr p) → prErr p old < (n + 1 : Nat) * conv := by
    intro p hp
    obtain ⟨h1, h2⟩ := hval p hp
    rw [prErr_eq h1 ho]
    have hp0 : ∀ v, 0 ≤ vec (n + 1) p v := fun v => by rw [h2 v]; exact hg v 0
    have hps : ∀ v, vec (n + 1) p v ≤ sweep (n + 1) (walk (n + 1) L) alpha (vec (n + 1) old) v := by
      intro v
      rw [h2 v, ← gain_sum hn v]
      have := sum_prefix_le (fun i => gain alpha
        (((dangling (n + 1) ((List.range (n + 1)).map L)).map (fun k => (old[k]?).getD 0)).sum * alpha) (n + 1)
        ((List.range (n + 1)).map L) old i v) (l := List.range (n + 1)) (pre := [0])
        (suf := (List.range n).map Nat.succ) (by rw [List.range_succ_eq_map]; rfl) (fun i _ => hg v i)
      simpa using this
    have hsum : ∑ v, vec (n + 1) p v ≤ alpha * ∑ v, vec (n + 1) old v + (1 - alpha) := by
      rw [← sum_sweep hn hW]
      exact Finset.sum_le_sum (fun v _ => hps v)
    refine lt_of_le_of_lt (dist1_le_sum hp0 hpos) ?_
    linarith
  have ht : ∃ p, t = .inl p := by
    cases ht : t with
    | inl p => exact ⟨p, rfl⟩
    | inr p => exact absurd (hlt p (Or.inr ht)) ((c2 p ht).2.2 (by simp))
  obtain ⟨p, rfl⟩ := ht
  obtain ⟨h1, h2⟩ := hval p (Or.inl rfl)
  refine ⟨p, ?_, h1, fun v hv0 hv => by rw [h2 v]; exact hzero v hv0 hv⟩
  have hr : List.range (n + 1) = 0 :: (List.range n).map Nat.succ := List.range_succ_eq_map
  unfold prTurn
  show (danglingSum old _ >>= _) = _
  rw [hd, Res.ok_bind]
  have h3 := prSweep_head (is := (List.range n).map Nat.succ) c1
  rw [← hr] at h3
  exact h3

/-! ## pageRank -/

variable {G : GraphI}

theorem walk_congr {W W' : Nat → Nat → F} (h : ∀ u, u < n → ∀ v, v < n → W u v = W' u v) {alpha : F} {r : Fin n → F} :
    IsPageRank n W alpha r ↔ IsPageRank n W' alpha r := by
  have : ∀ v : Fin n, ∑ u : Fin n, r u * W u v = ∑ u : Fin n, r u * W' u v := fun v =>
    Finset.sum_congr rfl (fun u _ => by rw [h u u.2 v v.2])
  unfold IsPageRank
  simp only [this]

theorem Approx.congr {W W' : Nat → Nat → F} (h : ∀ u, u < n → ∀ v, v < n → W u v = W' u v) {alpha conv c : F}
    {k : Nat} {p : List F} (ha : Approx n W alpha conv k c p) : Approx n W' alpha conv k c p := by
  obtain ⟨r, h1, h2, h3⟩ := ha
  exact ⟨r, (walk_congr h).1 h1, fun s hs => h2 s ((walk_congr h).2 hs), h3⟩

/-- The start: `1/T` for each vertex. -/
theorem start_sum {T : Nat} : ∑ v, vec n (List.replicate n (1 / (T : F))) v = (n : F) * (1 / (T : F)) := by
  have : ∀ v : Fin n, vec n (List.replicate n (1 / (T : F))) v = 1 / (T : F) := by
    intro v; simp [vec]
  rw [Finset.sum_congr rfl (fun v _ => this v), Finset.sum_const, Finset.card_univ, Fintype.card_fin, nsmul_eq_mul]

theorem start_nonneg {T : Nat} (v : Fin n) : 0 ≤ vec n (List.replicate n (1 / (T : F))) v := by
  have : vec n (List.replicate n (1 / (T : F))) v = 1 / (T : F) := by simp [vec]
  rw [this]; positivity

theorem start_ge {T : Nat} (h0 : 0 < T) (h : T ≤ n) : (1 : F) ≤ (n : F) * (1 / (T : F)) := by
  have h1 : (0 : F) < (T : F) := Nat.cast_pos.2 h0
  have h2 : (T : F) ≤ (n : F) := Nat.cast_le.2 h
  rw [mul_one_div, le_div_iff₀ h1, one_mul]; exact h2

theorem pageRank_unfold {L : Nat → List Nat} (hL : ∀ x, x < G.nodes → G.listNb x = .ok (L x)) (conv alpha : F)
    (k : Nat) :
    G.pageRank conv k alpha = prLoop alpha conv G.nodes ((List.range G.nodes).map L)
      (dangling G.nodes ((List.range G.nodes).map L)) k
      (List.replicate G.nodes (1 / (((List.range G.nodes).filter (fun x => !(L x).isEmpty)).length : F))) := by
  unfold pageRank
  rw [outLinks_ok (L := L) (fun x hx => hL x (List.mem_range.1 hx))]
  simp only [Res.ok_bind]
  have hlen : ((((List.range G.nodes).map L).filter (fun l => !l.isEmpty)).length) =
      ((List.range G.nodes).filter (fun x => !(L x).isEmpty)).length := by
    rw [List.filter_map, List.length_map]; rfl
  rw [hlen]
  rfl

/-- `pageRank` on a graph whose neighbour lists are `L`, not all empty. -/
theorem pageRank_near {L : Nat → List Nat} (hL : ∀ x, x < G.nodes → G.listNb x = .ok (L x))
    (hT : ∀ x, x < G.nodes → ∀ y ∈ L x, y < G.nodes) (hne : ∃ x, x < G.nodes ∧ L x ≠ [])
    {conv alpha : F} (ha : 0 ≤ alpha) (ha1 : alpha < 1) (k : Nat) :
    ∃ p, G.pageRank conv k alpha = .ok p ∧ p.length = G.nodes ∧ (∀ v, 0 ≤ vec G.nodes p v) ∧
      Approx G.nodes (walk G.nodes L) alpha conv k ((G.nodes : F) *
        (1 / (((List.range G.nodes).filter (fun x => !(L x).isEmpty)).length : F)) + 1) p := by
  obtain ⟨x0, hx0, hx1⟩ := hne
  have hn : 0 < G.nodes := by omega
  have hW := walk_stoch (F := F) hn hT
  obtain ⟨r, hr⟩ := pagerank_exists hW ha ha1
  obtain ⟨r0, r1⟩ := pagerank_prob hn hW ha ha1 hr
  have hT0 : 0 < ((List.range G.nodes).filter (fun x => !(L x).isEmpty)).length := by
    apply List.length_pos_of_mem (a := x0)
    rw [List.mem_filter, List.mem_range]
    refine ⟨hx0, ?_⟩
    cases h : L x0 with
    | nil => exact absurd h hx1
    | cons _ _ => rfl
  have hTn : ((List.range G.nodes).filter (fun x => !(L x).isEmpty)).length ≤ G.nodes := by
    have := List.length_filter_le (fun x => !(L x).isEmpty) (List.range G.nodes)
    simpa using this
  rw [pageRank_unfold hL]
  obtain ⟨p, a1, a2, a3, a4, a5⟩ := prLoop_near hn hT (conv := conv) ha ha1 hr k
    (List.replicate G.nodes (1 / (((List.range G.nodes).filter (fun x => !(L x).isEmpty)).length : F)))
    (by simp) start_nonneg (by rw [start_sum]; exact start_ge hT0 hTn)
  have hd : dist1 (vec G.nodes (List.replicate G.nodes
      (1 / (((List.range G.nodes).filter (fun x => !(L x).isEmpty)).length : F)))) r ≤
      (G.nodes : F) * (1 / (((List.range G.nodes).filter (fun x => !(L x).isEmpty)).length : F)) + 1 := by
    have := dist1_le_sum (start_nonneg (F := F) (n := G.nodes)
      (T := ((List.range G.nodes).filter (fun x => !(L x).isEmpty)).length)) r0
    rwa [start_sum, r1] at this
  refine ⟨p, a1, a2, a3, r, hr, fun s hs => pagerank_unique hW ha ha1 hs hr, r0, r1, ?_, ?_⟩
  · rcases a4 with a4 | a4
    · exact Or.inl (le_trans a4 (mul_le_mul_of_nonneg_left hd (pow_nonneg ha k)))
    · exact Or.inr a4
  · intro j hj hlt
    refine a5 j hj (lt_of_le_of_lt ?_ hlt)
    exact mul_le_mul_of_nonneg_left (mul_le_mul_of_nonneg_left hd (pow_nonneg ha j)) (by linarith)

/-- With more than `2/conv` vertices that have successors, `pageRank` returns after its first vertex. -/
theorem pageRank_early {L : Nat → List Nat} (hL : ∀ x, x < G.nodes → G.listNb x = .ok (L x))
    (hT : ∀ x, x < G.nodes → ∀ y ∈ L x, y < G.nodes) {conv alpha : F} (ha : 0 ≤ alpha) (ha1 : alpha ≤ 1)
    (hbig : 2 < (((List.range G.nodes).filter (fun x => !(L x).isEmpty)).length : F) * conv) (k : Nat) (hk : 0 < k) :
    ∃ p, G.pageRank conv k alpha = .ok p ∧ p.length = G.nodes ∧
      ∀ v : Fin G.nodes, (v : Nat) ≠ 0 → (v : Nat) ∉ L 0 → vec G.nodes p v = 0 := by
  have hTn : ((List.range G.nodes).filter (fun x => !(L x).isEmpty)).length ≤ G.nodes := by
    have := List.length_filter_le (fun x => !(L x).isEmpty) (List.range G.nodes)
    simpa using this
  have hT0 : 0 < ((List.range G.nodes).filter (fun x => !(L x).isEmpty)).length := by
    rcases Nat.eq_zero_or_pos ((List.range G.nodes).filter (fun x => !(L x).isEmpty)).length with h | h
    · rw [h, Nat.cast_zero, zero_mul] at hbig; linarith
    · exact h
  have hn : 0 < G.nodes := by omega
  obtain ⟨k, rfl⟩ := Nat.exists_eq_succ_of_ne_zero (Nat.pos_iff_ne_zero.1 hk)
  have h1 : (1 : F) ≤ (G.nodes : F) * (1 / (((List.range G.nodes).filter (fun x => !(L x).isEmpty)).length : F)) :=
    start_ge hT0 hTn
  have h2 : 2 * ((G.nodes : F) * (1 / (((List.range G.nodes).filter (fun x => !(L x).isEmpty)).length : F))) <
      G.nodes * conv := by
    have h3 : (0 : F) < (((List.range G.nodes).filter (fun x => !(L x).isEmpty)).length : F) := Nat.cast_pos.2 hT0
    have h4 : (0 : F) < (G.nodes : F) := Nat.cast_pos.2 hn
    rw [mul_one_div, mul_comm, div_mul_eq_mul_div, div_lt_iff₀ h3]
    have := mul_lt_mul_of_pos_left hbig h4
    linarith [mul_assoc (G.nodes : F) conv (((List.range G.nodes).filter (fun x => !(L x).isEmpty)).length : F),
      mul_comm conv (((List.range G.nodes).filter (fun x => !(L x).isEmpty)).length : F)]
  obtain ⟨p, c1, c2, c3⟩ := prTurn_first hn hT (conv := conv) ha ha1
    (old := List.replicate G.nodes (1 / (((List.range G.nodes).filter (fun x => !(L x).isEmpty)).length : F)))
    (by simp) start_nonneg (by rw [start_sum]; nlinarith)
  refine ⟨p, ?_, c2, c3⟩
  rw [pageRank_unfold hL]
  unfold prLoop
  rw [c1]
  rfl

theorem sources_eq {L : Nat → List Nat} {E : Edge → Prop} (hm : ∀ x, x < n → ∀ y, y ∈ L x ↔ E (x, y)) :
    ((List.range n).filter (fun x => !(L x).isEmpty)).length = sources n E := by
  classical
  unfold sources
  congr 1
  apply List.filter_congr
  intro x hx
  have hx := List.mem_range.1 hx
  cases hl : L x with
  | nil =>
    symm
    simp only [List.isEmpty_nil, Bool.not_true, decide_eq_false_iff_not, not_exists]
    intro y hy
    have := (hm x hx y).2 hy
    rw [hl] at this; cases this
  | cons y l =>
    symm
    simp only [List.isEmpty_cons, Bool.not_false, decide_eq_true_eq]
    exact ⟨y, (hm x hx y).1 (by rw [hl]; simp)⟩

/-- `pageRank` approximates the PageRank of the edge set that the graph shows. -/
theorem faithful_near {E : Edge → Prop} (h : G.Faithful E) (hne : ∃ e, E e) {conv alpha : F} (ha : 0 ≤ alpha)
    (ha1 : alpha < 1) (k : Nat) :
    ∃ p, G.pageRank conv k alpha = .ok p ∧ p.length = G.nodes ∧ (∀ v, 0 ≤ vec G.nodes p v) ∧
      Approx G.nodes (walkE G.nodes E) alpha conv k ((G.nodes : F) * (1 / (sources G.nodes E : F)) + 1) p := by
  choose! L hL using h.listNb
  obtain ⟨e, he⟩ := hne
  have hr := h.range _ he
  obtain ⟨p, h1, h2, h3, h4⟩ := pageRank_near (G := G) (L := L) (fun x hx => (hL x hx).1)
    (fun x hx y hy => (h.range _ (((hL x hx).2.2 y).1 hy)).2)
    ⟨e.1, hr.1, fun hh => by
      have := ((hL e.1 hr.1).2.2 e.2).2 he
      rw [hh] at this; cases this⟩ (conv := conv) ha ha1 k
  refine ⟨p, h1, h2, h3, ?_⟩
  rw [sources_eq (fun x hx => (hL x hx).2.2)] at h4
  exact h4.congr (fun u hu v _ => walk_eq (hL u hu).2.1 (hL u hu).2.2 (fun v hv => (h.range _ hv).2) v)

/-- With more than `2/conv` vertices that have successors, only vertex 0 and its successors get a rank. -/
theorem faithful_early {E : Edge → Prop} (h : G.Faithful E) {conv alpha : F} (ha : 0 ≤ alpha) (ha1 : alpha ≤ 1)
    (hbig : 2 < (sources G.nodes E : F) * conv) (k : Nat) (hk : 0 < k) :
    ∃ p, G.pageRank conv k alpha = .ok p ∧ p.length = G.nodes ∧
      ∀ v, v < G.nodes → v ≠ 0 → ¬ E (0, v) → p[v]? = some 0 := by
  choose! L hL using h.listNb
  rw [← sources_eq (fun x hx => (hL x hx).2.2)] at hbig
  obtain ⟨p, h1, h2, h3⟩ := pageRank_early (G := G) (L := L) (fun x hx => (hL x hx).1)
    (fun x hx y hy => (h.range _ (((hL x hx).2.2 y).1 hy)).2) ha ha1 hbig k hk
  refine ⟨p, h1, h2, fun v hv h0 hE => ?_⟩
  have := h3 ⟨v, hv⟩ h0 (fun hh => hE (((hL 0 (by omega)).2.2 v).1 hh))
  have hlt : v < p.length := by rw [h2]; exact hv
  unfold vec at this
  rw [List.getElem?_eq_getElem hlt] at this ⊢
  exact congrArg some this

end PR
end DK2
