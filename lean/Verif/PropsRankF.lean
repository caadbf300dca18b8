import Verif.PRRound
import Verif.IEEE
/-!
# C97: `pageRank` in floating point

C94 for the ranks as they are computed, with the rounding errors of `double` and `float` arithmetic.
-/

namespace DK2
open DK GraphI
namespace PR
variable {F : Type} [Field F] [LinearOrder F] [IsStrictOrderedRing F]
variable {A : FArith F} {u w eta B : F} {G : GraphI}

theorem pageRankF_unfold {L : Nat → List Nat} (hL : ∀ x, x < G.nodes → G.listNb x = .ok (L x)) (A : FArith F) (conv alpha : F)
    (k : Nat) :
    G.pageRankF A conv k alpha = fLoop A alpha conv G.nodes ((List.range G.nodes).map L)
      (dangling G.nodes ((List.range G.nodes).map L)) k
      (List.replicate G.nodes (A.inv (((List.range G.nodes).filter (fun x => !(L x).isEmpty)).length))) := by
  unfold pageRankF
  rw [outLinks_ok (L := L) (fun x hx => hL x (List.mem_range.1 hx))]
  simp only [Res.ok_bind]
  have hlen : ((((List.range G.nodes).map L).filter (fun l => !l.isEmpty)).length) =
      ((List.range G.nodes).filter (fun x => !(L x).isEmpty)).length := by
    rw [List.filter_map, List.length_map]; rfl
  rw [hlen]
  rfl

theorem fStart_vec {n : Nat} (x : F) (v : Fin n) : vec n (List.replicate n x) v = x := by simp [vec]

theorem fStart_sum {n : Nat} (x : F) : ∑ v, vec n (List.replicate n x) v = (n : F) * x := by
  rw [Finset.sum_congr rfl (fun v _ => fStart_vec x v), Finset.sum_const, Finset.card_univ, Fintype.card_fin, nsmul_eq_mul]

section
variable {alpha : F} (c : Cfg A u w eta B G.nodes alpha)
include c

/-- The start vector: `1/T` for each vertex, rounded. -/
theorem fStart {T : Nat} (hT0 : 0 < T) (hTn : T ≤ G.nodes) :
    0 ≤ A.inv T ∧ (1 - u) * ((G.nodes : F) * (1 / (T : F))) ≤ (G.nodes : F) * A.inv T ∧
      (G.nodes : F) * A.inv T ≤ (1 + u) * ((G.nodes : F) * (1 / (T : F))) := by
  have h := Rl.inv c.acc c.u0 c.u1 hT0 (le_trans hTn c.n53)
  have h1 := abs_le.1 h.2.2
  have hn : (0 : F) ≤ (G.nodes : F) := Nat.cast_nonneg _
  refine ⟨h.2.1, ?_, ?_⟩
  · have := mul_le_mul_of_nonneg_left (by linarith : (1 - u) * (1 / (T : F)) ≤ A.inv T) hn
    linarith [mul_left_comm (1 - u) (G.nodes : F) (1 / (T : F))]
  · have := mul_le_mul_of_nonneg_left (by linarith : A.inv T ≤ (1 + u) * (1 / (T : F))) hn
    linarith [mul_left_comm (1 + u) (G.nodes : F) (1 / (T : F))]

/-- `pageRank` with rounding, on a graph whose neighbour lists are `L`, without repetitions and not all empty; `q` is
`n` divided by the number of vertices with a successor. -/
theorem pageRankF_near {L : Nat → List Nat} (hL : ∀ x, x < G.nodes → G.listNb x = .ok (L x))
    (hT : ∀ x, x < G.nodes → ∀ y ∈ L x, y < G.nodes) (hnd : ∀ x, x < G.nodes → (L x).Nodup)
    {q : F} (hq : q = (G.nodes : F) * (1 / (((List.range G.nodes).filter (fun x => !(L x).isEmpty)).length : F)))
    (hne : ∃ x, x < G.nodes ∧ L x ≠ []) {conv : F} (he4 : 4 * reps u w G.nodes ≤ 1 - alpha)
    (hd4 : 4 * rdel eta G.nodes ≤ 1 - alpha) (hB : 8 * (2 * q) + 3 ≤ B) (k : Nat) :
    ∃ p r, G.pageRankF A conv k alpha = .ok p ∧ p.length = G.nodes ∧ (∀ v, 0 ≤ vec G.nodes p v) ∧
      IsPageRank G.nodes (walk G.nodes L) alpha r ∧
      ((1 - alpha) * dist1 (vec G.nodes p) r ≤
          (1 - alpha) * (alpha ^ k * ((1 + u) * q + 1)) + rerr u w eta (2 * q) G.nodes ∨
        FStop A u w eta (2 * q) alpha conv G.nodes p r) := by
  obtain ⟨x0, hx0, hx1⟩ := hne
  have hn := c.n0
  have ha := c.a0
  have ha1 := c.a1
  have hW := walk_stoch (F := F) hn hT
  obtain ⟨r, hr⟩ := pagerank_exists hW ha ha1
  obtain ⟨r0, r1⟩ := pagerank_prob hn hW ha ha1 hr
  obtain ⟨T, hTdef⟩ : ∃ T, T = ((List.range G.nodes).filter (fun x => !(L x).isEmpty)).length := ⟨_, rfl⟩
  have hT0 : 0 < T := by
    rw [hTdef]
    apply List.length_pos_of_mem (a := x0)
    rw [List.mem_filter, List.mem_range]
    refine ⟨hx0, ?_⟩
    cases h : L x0 with
    | nil => exact absurd h hx1
    | cons _ _ => rfl
  have hTn : T ≤ G.nodes := by
    have := List.length_filter_le (fun x => !(L x).isEmpty) (List.range G.nodes)
    rw [hTdef]; simpa using this
  rw [← hTdef] at hq
  have hq1 : 1 ≤ q := by rw [hq]; exact start_ge hT0 hTn
  obtain ⟨s0, s1, s2⟩ := fStart c hT0 hTn
  rw [← hq] at s1 s2
  have hu := c.u0
  have hu1 := c.u1
  have hue := u_le_reps c
  have hd0 := rdel_nonneg c
  have hr0 := reps_nonneg c
  rw [pageRankF_unfold hL, ← hTdef]
  obtain ⟨p, a1, a2, a3, _, a4, _⟩ := fLoop_near c hT hnd (conv := conv) (X := 2 * q) (by linarith) he4 hd4 hB hr k
    (List.replicate G.nodes (A.inv T)) (by simp) (fun v => by rw [fStart_vec]; exact s0)
    (by rw [fStart_sum]; nlinarith) (by
      rw [fStart_sum]
      have h1 : (1 - alpha) * ((1 - u) * q) ≤ (1 - alpha) * (G.nodes * A.inv T) :=
        mul_le_mul_of_nonneg_left s1 (by linarith)
      have h2 : (1 - u) * 1 ≤ (1 - u) * q := mul_le_mul_of_nonneg_left hq1 (by linarith)
      have h3 : (1 - alpha) * ((1 - u) * 1) ≤ (1 - alpha) * ((1 - u) * q) := mul_le_mul_of_nonneg_left h2 (by linarith)
      have h4 : (1 - alpha) * u ≤ u := by nlinarith
      linarith)
  have hd : dist1 (vec G.nodes (List.replicate G.nodes (A.inv T))) r ≤ (1 + u) * q + 1 := by
    have := dist1_le_sum (p := vec G.nodes (List.replicate G.nodes (A.inv T))) (q := r)
      (fun v => by rw [fStart_vec]; exact s0) r0
    rw [fStart_sum, r1] at this
    linarith
  refine ⟨p, r, a1, a2, a3, hr, ?_⟩
  rcases a4 with a4 | a4
  · refine Or.inl (le_trans a4 (add_le_add ?_ ?_))
    · exact mul_le_mul_of_nonneg_left (mul_le_mul_of_nonneg_left hd (pow_nonneg ha k)) (by linarith)
    · have h1 : 0 ≤ rerr u w eta (2 * q) G.nodes := by
        unfold rerr
        have := mul_nonneg hr0 (by linarith : 0 ≤ 2 * q)
        linarith
      have h2 : 0 ≤ alpha ^ k * rerr u w eta (2 * q) G.nodes := mul_nonneg (pow_nonneg ha k) h1
      linarith
  · exact Or.inr a4

end

/-! ## IEEE arithmetic -/

theorem ieee_eta : (1 : F) / 2 ^ 1074 ≤ 1 / 2 ^ 200 :=
  one_div_le_one_div_of_le (by positivity) (pow_le_pow_right₀ (by norm_num) (by norm_num))

theorem ieee_big : (2 : F) ^ 40 ≤ 2 ^ 500 := pow_le_pow_right₀ (by norm_num) (by norm_num)

theorem one_add_pow_le {u : F} (hu : 0 ≤ u) (hu1 : u ≤ 1) (m : Nat) : (1 + u) ^ m * (1 - m * u) ≤ 1 := by
  have h1 : 1 + (m : F) * (-u) ≤ (1 + -u) ^ m := one_add_mul_le_pow (by linarith) m
  have h2 : (1 + u) ^ m * (1 + -u) ^ m ≤ 1 := by
    rw [← mul_pow]
    refine pow_le_one₀ ?_ ?_ <;> nlinarith
  have h3 : (0 : F) ≤ (1 + u) ^ m := by positivity
  have := mul_le_mul_of_nonneg_left h1 h3
  linarith

theorem ieee_pow {n : Nat} (hn : n ≤ 9999999) : (1 + 1 / 2 ^ 53 : F) ^ (3 * n + 4) ≤ 1 + 1 / 200000000 := by
  have h := one_add_pow_le (F := F) (u := 1 / 2 ^ 53) (by positivity) (by norm_num) (3 * n + 4)
  have h1 : ((3 * n + 4 : Nat) : F) ≤ 30000001 := by exact_mod_cast (by omega : 3 * n + 4 ≤ 30000001)
  have h0 : (0 : F) ≤ (1 + 1 / 2 ^ 53 : F) ^ (3 * n + 4) := by positivity
  have h2 : (1 : F) - 30000001 * (1 / 2 ^ 53) ≤ 1 - ((3 * n + 4 : Nat) : F) * (1 / 2 ^ 53) := by
    have := mul_le_mul_of_nonneg_right h1 (by positivity : (0 : F) ≤ 1 / 2 ^ 53)
    linarith
  have h3 := mul_le_mul_of_nonneg_left h2 h0
  have h4 : (1 + 1 / 2 ^ 53 : F) ^ (3 * n + 4) * (1 - 30000001 * (1 / 2 ^ 53)) ≤ 1 := by linarith
  have h5 : (1 : F) ≤ (1 + 1 / 200000000) * (1 - 30000001 * (1 / 2 ^ 53)) := by norm_num
  have h6 : (0 : F) < 1 - 30000001 * (1 / 2 ^ 53) := by norm_num
  exact le_of_mul_le_mul_right (le_trans h4 h5) h6

theorem ieee_reps {n : Nat} (hn : n ≤ 9999999) : reps (1 / 2 ^ 53 : F) (1 / 2 ^ 22) n ≤ 1 / 4000000 := by
  unfold reps
  have h := mul_le_mul_of_nonneg_right (ieee_pow (F := F) hn) (by positivity : (0 : F) ≤ 1 + 1 / 2 ^ 22)
  have h2 : (1 + 1 / 200000000 : F) * (1 + 1 / 2 ^ 22) ≤ 1 + 1 / 4000000 := by norm_num
  linarith

theorem ieee_rdel {n : Nat} (hn : n ≤ 9999999) : rdel (1 / 2 ^ 1074 : F) n ≤ 1 / 10 ^ 20 := by
  unfold rdel
  have h1 : (n : F) ≤ 9999999 := by exact_mod_cast hn
  have h0 : (0 : F) ≤ (n : F) := Nat.cast_nonneg n
  have h2 : 34 * (n : F) * (n : F) ≤ 34 * 9999999 * 9999999 := by nlinarith
  have h3 := mul_le_mul h2 (ieee_eta (F := F)) (by positivity) (by norm_num)
  refine le_trans h3 ?_
  norm_num

theorem ieee_cfg {n : Nat} (hA : A.IEEE) (h0 : 0 < n) (hn : n ≤ 9999999) {alpha : F} (ha : 0 ≤ alpha) (ha1 : alpha < 1) :
    Cfg A (1 / 2 ^ 53) (1 / 2 ^ 22) (1 / 2 ^ 1074) (2 ^ 500) n alpha := by
  refine ⟨hA, by positivity, by positivity, by positivity, h0, by omega, ha, ha1, ?_, ?_⟩
  · have := ieee_reps (F := F) hn
    unfold reps at this
    have h2 : (1 : F) / 4000000 ≤ 1 := by norm_num
    linarith
  · have h1 : (n : F) ≤ 9999999 := by exact_mod_cast hn
    have h2 : 34 * (n : F) ≤ 34 * 9999999 := by linarith
    have h3 := mul_le_mul h2 (ieee_eta (F := F)) (by positivity) (by norm_num)
    refine le_trans h3 ?_
    norm_num

/-- `pageRank` in IEEE arithmetic on a graph that shows its edges; `q` is `n` divided by the number of vertices with a
successor. -/
theorem faithfulF_near {E : Edge → Prop} (h : G.Faithful E) (hn : G.nodes ≤ 9999999) (hne : ∃ e, E e) (hA : A.IEEE)
    {conv alpha : F} (hc : 0 ≤ conv) (hc1 : conv ≤ 2 ^ 500) (ha : 0 ≤ alpha) (ha1 : alpha ≤ 1 - 1 / 10 ^ 6) (k : Nat) {q : F}
    (hq : q = (G.nodes : F) * (1 / (sources G.nodes E : F))) :
    ∃ p r, G.pageRankF A conv k alpha = .ok p ∧ p.length = G.nodes ∧ (∀ v, 0 ≤ vec G.nodes p v) ∧
      IsPageRank G.nodes (walkE G.nodes E) alpha r ∧
      ((1 - alpha) * dist1 (vec G.nodes p) r ≤
          (1 - alpha) * (alpha ^ k * ((1 + 1 / 2 ^ 53) * q + 1)) + q / 1900000 ∨
        (1 - alpha) * dist1 (vec G.nodes p) r ≤ (1 + alpha) * ((1 + 1 / 10 ^ 6) * (G.nodes * conv)) + q / 750000) := by
  choose! L hL using h.listNb
  obtain ⟨e, he⟩ := hne
  have hrg := h.range _ he
  have hn0 : 0 < G.nodes := by have := hrg.1; omega
  have hd6 : (1 : F) / 10 ^ 6 ≤ 1 - alpha := by linarith
  have ha2 : alpha < 1 := by
    have : (0 : F) < 1 / 10 ^ 6 := by positivity
    linarith
  have c := ieee_cfg (F := F) hA hn0 hn ha ha2
  have hT : ∀ x, x < G.nodes → ∀ y ∈ L x, y < G.nodes := fun x hx y hy => (h.range _ (((hL x hx).2.2 y).1 hy)).2
  have hLe : L e.1 ≠ [] := fun hh => by
    have := ((hL e.1 hrg.1).2.2 e.2).2 he
    rw [hh] at this; cases this
  have hT0 : 0 < ((List.range G.nodes).filter (fun x => !(L x).isEmpty)).length := by
    apply List.length_pos_of_mem (a := e.1)
    rw [List.mem_filter, List.mem_range]
    refine ⟨hrg.1, ?_⟩
    cases h' : L e.1 with
    | nil => exact absurd h' hLe
    | cons _ _ => rfl
  have hTn : ((List.range G.nodes).filter (fun x => !(L x).isEmpty)).length ≤ G.nodes := by
    have := List.length_filter_le (fun x => !(L x).isEmpty) (List.range G.nodes)
    simpa using this
  rw [← sources_eq (fun x hx => (hL x hx).2.2)] at hq
  have hq1 : 1 ≤ q := by rw [hq]; exact start_ge hT0 hTn
  have hnF : (G.nodes : F) ≤ 9999999 := by exact_mod_cast hn
  have hqn : q ≤ G.nodes := by
    rw [hq]
    have h1 : (1 : F) ≤ (((List.range G.nodes).filter (fun x => !(L x).isEmpty)).length : F) := by exact_mod_cast hT0
    have h2 : (1 : F) / (((List.range G.nodes).filter (fun x => !(L x).isEmpty)).length : F) ≤ 1 := by
      rw [div_le_one (by linarith)]; exact h1
    have := mul_le_mul_of_nonneg_left h2 (Nat.cast_nonneg (α := F) G.nodes)
    linarith
  have hreps := ieee_reps (F := F) hn
  have hrdel := ieee_rdel (F := F) hn
  have hr0 := reps_nonneg c
  have hd0 := rdel_nonneg c
  obtain ⟨p, r, p1, p2, p3, p4, p5⟩ := pageRankF_near c (fun x hx => (hL x hx).1) hT (fun x hx => (hL x hx).2.1) hq
    ⟨e.1, hrg.1, hLe⟩ (conv := conv) (by
      have : 4 * ((1 : F) / 4000000) = 1 / 10 ^ 6 := by norm_num
      linarith) (by
      have : 4 * ((1 : F) / 10 ^ 20) ≤ 1 / 10 ^ 6 := by norm_num
      linarith) (by
      refine le_trans (?_ : _ ≤ (8 : F) * (2 * 9999999) + 3) (le_trans (by norm_num) ieee_big)
      clear hc1
      linarith) k
  have hrerr : rerr (1 / 2 ^ 53) (1 / 2 ^ 22) (1 / 2 ^ 1074) (2 * q) G.nodes ≤ q / 1900000 := by
    unfold rerr
    have h1 := mul_le_mul_of_nonneg_right hreps (by linarith : (0 : F) ≤ 2 * q)
    have h2 : (1 : F) / 10 ^ 20 ≤ 1 / 10 ^ 20 * q := by
      have := mul_le_mul_of_nonneg_left hq1 (by positivity : (0 : F) ≤ 1 / 10 ^ 20)
      linarith
    have h3 : (1 / 4000000 * 2 + 1 / 10 ^ 20 : F) * q ≤ 1 / 1900000 * q :=
      mul_le_mul_of_nonneg_right (by norm_num) (by linarith)
    linarith
  refine ⟨p, r, p1, p2, p3, ?_, ?_⟩
  · exact (walk_congr (fun u hu v _ => walk_eq (hL u hu).2.1 (hL u hu).2.2 (fun v hv => (h.range _ hv).2) v)).1 p4
  · rcases p5 with p5 | ⟨d, d1, d2⟩
    · exact Or.inl (le_trans p5 (by linarith))
    · refine Or.inr (le_trans d2 ?_)
      have hncB : (0 : F) ≤ (G.nodes : F) * conv := mul_nonneg (Nat.cast_nonneg _) hc
      have hm := c.acc.mul (G.nodes : F) conv (by
        rw [abs_of_nonneg (Nat.cast_nonneg _)]
        exact le_trans hnF (le_trans (by norm_num) ieee_big)) (by rw [abs_of_nonneg hc]; exact hc1)
      rw [abs_of_nonneg hncB] at hm
      have hm2 := (abs_le.1 hm).2
      have hd : d ≤ (1 + 1 / 10 ^ 6) * (G.nodes * conv) + 1 / 10 ^ 20 := by
        by_contra hcon
        have hcon := not_le.1 hcon
        have hpos : 0 < 1 - reps (1 / 2 ^ 53 : F) (1 / 2 ^ 22) G.nodes := by
          have : (1 : F) / 4000000 < 1 := by norm_num
          linarith
        have h1 := mul_lt_mul_of_pos_left hcon hpos
        have h2 : (1 - 1 / 4000000 : F) * ((1 + 1 / 10 ^ 6) * (G.nodes * conv) + 1 / 10 ^ 20) ≤
            (1 - reps (1 / 2 ^ 53 : F) (1 / 2 ^ 22) G.nodes) * ((1 + 1 / 10 ^ 6) * (G.nodes * conv) + 1 / 10 ^ 20) :=
          mul_le_mul_of_nonneg_right (by linarith) (by positivity)
        have h3 : (1 + 1 / 2 ^ 53 : F) * (G.nodes * conv) ≤ (1 - 1 / 4000000) * (1 + 1 / 10 ^ 6) * (G.nodes * conv) :=
          mul_le_mul_of_nonneg_right (by norm_num) hncB
        have h4 : (1 : F) / 2 ^ 1074 ≤ (1 - 1 / 4000000) * (1 / 10 ^ 20) := le_trans ieee_eta (by norm_num)
        linarith
      have h5 : (1 + alpha) * d ≤ (1 + alpha) * ((1 + 1 / 10 ^ 6) * (G.nodes * conv) + 1 / 10 ^ 20) :=
        mul_le_mul_of_nonneg_left hd (by linarith)
      have h6 : (1 + alpha) * (1 / 10 ^ 20) ≤ 2 * (1 / 10 ^ 20) :=
        mul_le_mul_of_nonneg_right (by linarith) (by positivity)
      have h7 : (2 / 10 ^ 20 + 1 / 4000000 + 1 / 10 ^ 20 + 2 / 1900000 : F) * q ≤ 1 / 750000 * q :=
        mul_le_mul_of_nonneg_right (by norm_num) (by linarith)
      have h8 : (2 / 10 ^ 20 + 1 / 4000000 + 1 / 10 ^ 20 : F) * 1 ≤ (2 / 10 ^ 20 + 1 / 4000000 + 1 / 10 ^ 20) * q :=
        mul_le_mul_of_nonneg_left hq1 (by positivity)
      linarith

/-- With more than about `2/conv` vertices with a successor, the first sweep ends after vertex 0. -/
theorem faithfulF_early {E : Edge → Prop} (h : G.Faithful E) (hn : G.nodes ≤ 9999999) (hne : ∃ e, E e) (hA : A.IEEE)
    {conv alpha : F} (hc : 0 ≤ conv) (hc1 : conv ≤ 2 ^ 500) (ha : 0 ≤ alpha) (ha1 : alpha < 1)
    (hbig : 20001 / 10000 < (sources G.nodes E : F) * conv) (k : Nat) (hk : 0 < k) :
    ∃ p, G.pageRankF A conv k alpha = .ok p ∧ p.length = G.nodes ∧
      ∀ v, v < G.nodes → v ≠ 0 → ¬ E (0, v) → p[v]? = some 0 := by
  choose! L hL using h.listNb
  obtain ⟨e, he⟩ := hne
  have hrg := h.range _ he
  have hn0 : 0 < G.nodes := by have := hrg.1; omega
  have c := ieee_cfg (F := F) hA hn0 hn ha ha1
  have hT : ∀ x, x < G.nodes → ∀ y ∈ L x, y < G.nodes := fun x hx y hy => (h.range _ (((hL x hx).2.2 y).1 hy)).2
  have hLe : L e.1 ≠ [] := fun hh => by
    have := ((hL e.1 hrg.1).2.2 e.2).2 he
    rw [hh] at this; cases this
  rw [← sources_eq (fun x hx => (hL x hx).2.2)] at hbig
  obtain ⟨T, hTdef⟩ : ∃ T, T = ((List.range G.nodes).filter (fun x => !(L x).isEmpty)).length := ⟨_, rfl⟩
  rw [← hTdef] at hbig
  have hT0 : 0 < T := by
    rw [hTdef]
    apply List.length_pos_of_mem (a := e.1)
    rw [List.mem_filter, List.mem_range]
    refine ⟨hrg.1, ?_⟩
    cases h' : L e.1 with
    | nil => exact absurd h' hLe
    | cons _ _ => rfl
  have hTn : T ≤ G.nodes := by
    have := List.length_filter_le (fun x => !(L x).isEmpty) (List.range G.nodes)
    rw [hTdef]; simpa using this
  have hTF : (0 : F) < (T : F) := by exact_mod_cast hT0
  have hnF : (G.nodes : F) ≤ 9999999 := by exact_mod_cast hn
  obtain ⟨q, hq⟩ : ∃ q, q = (G.nodes : F) * (1 / (T : F)) := ⟨_, rfl⟩
  have hq1 : 1 ≤ q := by rw [hq]; exact start_ge hT0 hTn
  have hqT : q * (T : F) = G.nodes := by rw [hq]; field_simp
  have hqn : q ≤ G.nodes := by
    rw [← hqT]
    have h1 : (1 : F) ≤ (T : F) := by exact_mod_cast hT0
    nlinarith
  have hreps := ieee_reps (F := F) hn
  have hrdel := ieee_rdel (F := F) hn
  have hr0 := reps_nonneg c
  have hd0 := rdel_nonneg c
  obtain ⟨s0, s1, s2⟩ := fStart c hT0 hTn
  rw [← hq] at s1 s2
  obtain ⟨M, hM⟩ : ∃ M, M = (G.nodes : F) * A.inv T := ⟨_, rfl⟩
  have hM0 : 0 ≤ M := by rw [hM]; exact mul_nonneg (Nat.cast_nonneg _) s0
  rw [← hM] at s1 s2
  have hM2 : M ≤ (1 + 1 / 10 ^ 10) * q := by
    refine le_trans s2 (mul_le_mul_of_nonneg_right ?_ (by linarith))
    norm_num
  have hsum : ∑ v, vec G.nodes (List.replicate G.nodes (A.inv T)) v = M := by rw [fStart_sum, hM]
  obtain ⟨r, hr⟩ : ∃ r, r = reps (1 / 2 ^ 53 : F) (1 / 2 ^ 22) G.nodes := ⟨_, rfl⟩
  obtain ⟨dl, hdl⟩ : ∃ dl, dl = rdel (1 / 2 ^ 1074 : F) G.nodes := ⟨_, rfl⟩
  obtain ⟨t, c1, c2, c3, c4, _⟩ := fTurn_vec c hT (fun x hx => (hL x hx).2.1) (conv := conv) (X := 2 * q)
    (old := List.replicate G.nodes (A.inv T)) (by simp) (fun v => by rw [fStart_vec]; exact s0)
    (by
      rw [hsum]
      have : (1 + 1 / 10 ^ 10 : F) * q ≤ 2 * q := mul_le_mul_of_nonneg_right (by norm_num) (by linarith)
      linarith) (by linarith)
    (by
      have : (1 : F) / 10 ^ 20 ≤ 1 := by norm_num
      linarith)
    (by
      refine le_trans (?_ : _ ≤ (8 : F) * (2 * 9999999) + 3) (le_trans (by norm_num) ieee_big)
      clear hc1
      linarith)
  rw [hsum, ← hr, ← hdl] at c4
  rw [← hr] at hreps hr0
  rw [← hdl] at hrdel hd0
  have hm := c.acc.mul (G.nodes : F) conv (by
    rw [abs_of_nonneg (Nat.cast_nonneg _)]
    exact le_trans hnF (le_trans (by norm_num) ieee_big)) (by rw [abs_of_nonneg hc]; exact hc1)
  rw [abs_of_nonneg (mul_nonneg (Nat.cast_nonneg _) hc : (0 : F) ≤ (G.nodes : F) * conv)] at hm
  have hm1 := (abs_le.1 hm).1
  have heta := ieee_eta (F := F)
  clear hm hc1
  have hnc : 20001 / 10000 * q < (G.nodes : F) * conv := by
    rw [← hqT]
    have := mul_lt_mul_of_pos_left hbig (by linarith : (0 : F) < q)
    linarith
  have hgo : (1 + r) * ((1 + r) * (alpha * M + (1 - alpha)) + dl + M) < A.mul G.nodes conv := by
    have h1 : alpha * M + (1 - alpha) ≤ (1 + 1 / 10 ^ 10) * q := by
      have h2 := mul_le_mul_of_nonneg_left hM2 ha
      have h3 : (1 : F) ≤ (1 + 1 / 10 ^ 10) * q := by
        have : (0 : F) ≤ 1 / 10 ^ 10 * q := by positivity
        linarith
      have h4 := mul_le_mul_of_nonneg_left h3 (by linarith : (0 : F) ≤ 1 - alpha)
      linarith
    have h0 : 0 ≤ alpha * M + (1 - alpha) := by
      have := mul_nonneg ha hM0
      linarith
    have hr1 : 1 + r ≤ 1 + 1 / 4000000 := by linarith
    have h2 : (1 + r) * (alpha * M + (1 - alpha)) ≤ (1 + 1 / 4000000) * ((1 + 1 / 10 ^ 10) * q) :=
      mul_le_mul hr1 h1 h0 (by norm_num)
    have h3 : dl ≤ 1 / 10 ^ 20 * q := by
      have := mul_le_mul_of_nonneg_left hq1 (by positivity : (0 : F) ≤ 1 / 10 ^ 20)
      linarith
    have h4 : (1 + r) * ((1 + r) * (alpha * M + (1 - alpha)) + dl + M) ≤
        (1 + 1 / 4000000) * ((1 + 1 / 4000000) * ((1 + 1 / 10 ^ 10) * q) + 1 / 10 ^ 20 * q + (1 + 1 / 10 ^ 10) * q) := by
      refine mul_le_mul hr1 (by linarith) ?_ (by norm_num)
      have := mul_nonneg (by linarith : 0 ≤ 1 + r) h0
      linarith
    have h5 : (1 + 1 / 4000000) * ((1 + 1 / 4000000) * ((1 + 1 / 10 ^ 10) * q) + 1 / 10 ^ 20 * q + (1 + 1 / 10 ^ 10) * q) ≤
        200001 / 100000 * q := by
      have : ((1 + 1 / 4000000) * ((1 + 1 / 4000000) * (1 + 1 / 10 ^ 10) + 1 / 10 ^ 20 + (1 + 1 / 10 ^ 10)) : F) ≤
          200001 / 100000 := by norm_num
      have := mul_le_mul_of_nonneg_right this (by linarith : 0 ≤ q)
      linarith
    have h6 : (1 - 1 / 2 ^ 53 : F) * (20001 / 10000 * q) ≤ (1 - 1 / 2 ^ 53) * (G.nodes * conv) :=
      mul_le_mul_of_nonneg_left hnc.le (by norm_num)
    have h7 : (1 : F) / 2 ^ 200 ≤ 1 / 2 ^ 200 * q := by
      have := mul_le_mul_of_nonneg_left hq1 (by positivity : (0 : F) ≤ 1 / 2 ^ 200)
      linarith
    have h8 : (200001 / 100000 : F) * q < ((1 - 1 / 2 ^ 53) * (20001 / 10000) - 1 / 2 ^ 200) * q :=
      mul_lt_mul_of_pos_right (by norm_num) (by linarith)
    linarith
  obtain ⟨p, rfl, hz⟩ := c4 hgo
  obtain ⟨p1, _⟩ := c3 p rfl
  refine ⟨p, ?_, p1, fun v hv h0 hE => ?_⟩
  · rw [pageRankF_unfold (fun x hx => (hL x hx).1), ← hTdef]
    cases k with
    | zero => exact absurd hk (by omega)
    | succ k =>
      unfold fLoop
      rw [c1]
      rfl
  · have := hz ⟨v, hv⟩ h0 (fun hh => hE (((hL 0 hn0).2.2 v).1 hh))
    have hlt : v < p.length := by rw [p1]; exact hv
    unfold vec at this
    rw [List.getElem?_eq_getElem hlt] at this ⊢
    exact congrArg some this

end PR

variable {K : K2Impl}

/-- C97, the full statement, for an arithmetic `A`: on every graph with an edge, the ranks that `pageRank()` computes by
default are within `1/2` (in the sum of absolute differences) of the solution of the PageRank equation. -/
def C97_Full (K : K2Impl) (A : FArith ℚ) : Prop :=
  ∀ (n : Nat) (es : List Edge) (g : DK K), 2 ≤ n → n ≤ 9999999 → es ≠ [] → (∀ e ∈ es, InRange n e) →
    DK.run K realSizing n (es.map Op.add) = .ok g →
    ∃ p r, g.iface.pageRankF A conv0 100 alpha0 = .ok p ∧ PR.IsPageRank n (PR.walkE n (fun e => e ∈ es)) alpha0 r ∧
      PR.dist1 (PR.vec n p) r ≤ 1 / 2

section
variable {F : Type} [Field F] [LinearOrder F] [IsStrictOrderedRing F] {A : FArith F}

/-- C97 on every insertion history with an edge, in every arithmetic that meets the guarantees of IEEE-754, for all
`0 ≤ alpha ≤ 1 - 1/10^6`, thresholds and numbers `k` of sweeps: `pageRank` returns, the ranks are not negative, and their
distance to the PageRank is that of C94 with `q = n/T` up to `q/1900000` or, when the convergence test stopped the loop,
up to a factor `1 + 1/10^6` and `q/750000`, each divided by `1 - alpha`. -/
theorem C97_rank_partial (hK : K.Lawful) (hF : K.ForcedPure) {n : Nat} (h2 : 2 ≤ n) (hn : n ≤ 9999999) {es : List Edge}
    (hes : ∀ e ∈ es, InRange n e) (hne : es ≠ []) {g : DK K} (hr : DK.run K realSizing n (es.map Op.add) = .ok g)
    (hA : A.IEEE) {conv alpha : F} (hc : 0 ≤ conv) (hc1 : conv ≤ 2 ^ 500) (ha : 0 ≤ alpha) (ha1 : alpha ≤ 1 - 1 / 10 ^ 6)
    (k : Nat) {q : F} (hq : q = (n : F) * (1 / (PR.sources n (fun e => e ∈ es) : F))) :
    ∃ p, g.iface.pageRankF A conv k alpha = .ok p ∧ p.length = n ∧ (∀ x ∈ p, 0 ≤ x) ∧
      ∃ r : Fin n → F, PR.IsPageRank n (PR.walkE n (fun e => e ∈ es)) alpha r ∧
        (∀ s, PR.IsPageRank n (PR.walkE n (fun e => e ∈ es)) alpha s → s = r) ∧
        ((1 - alpha) * PR.dist1 (PR.vec n p) r ≤ (1 - alpha) * (alpha ^ k * ((1 + 1 / 2 ^ 53) * q + 1)) + q / 1900000 ∨
          (1 - alpha) * PR.dist1 (PR.vec n p) r ≤ (1 + alpha) * ((1 + 1 / 10 ^ 6) * (n * conv)) + q / 750000) := by
  obtain ⟨g', h1, h3, hf⟩ := built hK hF h2 hn hes
  rw [hr] at h1; cases h1
  obtain ⟨e, he⟩ := List.exists_mem_of_ne_nil es hne
  obtain ⟨p, r, p1, p2, p3, p4, p5⟩ := PR.faithfulF_near (A := A) hf (by rw [h3]; exact hn) ⟨e, he⟩ hA hc hc1 ha ha1 k
    (q := q) (by rw [h3]; exact hq)
  have ha2 : alpha < 1 := by
    have : (0 : F) < 1 / 10 ^ 6 := by positivity
    linarith
  obtain ⟨_, _, _, _, r', r1, r2, _⟩ := C94_rank_partial hK hF h2 hn hes hne hr (conv := conv) ha ha2 k
  clear hc1
  generalize hG : g.iface = G at *
  subst h3
  refine ⟨p, p1, p2, fun x hx => ?_, r, p4, fun s hs => ?_, p5⟩
  · obtain ⟨i, hi, rfl⟩ := List.mem_iff_getElem.1 hx
    have := p3 ⟨i, by omega⟩
    unfold PR.vec at this
    rwa [List.getElem?_eq_getElem hi] at this
  · rw [r2 s hs, r2 r p4]

/-- C97, the failure in general: when more than `2.0001/conv` vertices have a successor, `pageRank` stops after the first
vertex of the first sweep: every vertex other than 0 and the successors of 0 gets rank 0. -/
theorem C97_early (hK : K.Lawful) (hF : K.ForcedPure) {n : Nat} (h2 : 2 ≤ n) (hn : n ≤ 9999999) {es : List Edge}
    (hes : ∀ e ∈ es, InRange n e) (hne : es ≠ []) {g : DK K} (hr : DK.run K realSizing n (es.map Op.add) = .ok g)
    (hA : A.IEEE) {conv alpha : F} (hc : 0 ≤ conv) (hc1 : conv ≤ 2 ^ 500) (ha : 0 ≤ alpha) (ha1 : alpha < 1)
    (hbig : 20001 / 10000 < (PR.sources n (fun e => e ∈ es) : F) * conv) (k : Nat) (hk : 0 < k) :
    ∃ p, g.iface.pageRankF A conv k alpha = .ok p ∧ p.length = n ∧
      ∀ v, v < n → v ≠ 0 → (0, v) ∉ es → p[v]? = some 0 := by
  obtain ⟨g', h1, h3, hf⟩ := built hK hF h2 hn hes
  rw [hr] at h1; cases h1
  obtain ⟨e, he⟩ := List.exists_mem_of_ne_nil es hne
  have := PR.faithfulF_early (A := A) hf (by rw [h3]; exact hn) ⟨e, he⟩ hA hc hc1 ha ha1 (by rw [h3]; exact hbig) k hk
  rwa [h3] at this

end

theorem alpha0_nonneg : (0 : ℚ) ≤ alpha0 := by unfold alpha0; norm_num
theorem conv0_nonneg : (0 : ℚ) ≤ conv0 := by unfold conv0; norm_num
theorem conv0_le : conv0 ≤ 2 ^ 500 := le_trans (by unfold conv0; norm_num : conv0 ≤ 2 ^ 40) PR.ieee_big

/-- C97 with the default arguments: the computed ranks are within `n/45000` of the PageRank; so `C97_Full` holds up to
22500 vertices. -/
theorem C97_default_partial (hK : K.Lawful) (hF : K.ForcedPure) {A : FArith ℚ} (hA : A.IEEE) {n : Nat} (h2 : 2 ≤ n)
    (hn : n ≤ 9999999) {es : List Edge} (hes : ∀ e ∈ es, InRange n e) (hne : es ≠ []) {g : DK K}
    (hr : DK.run K realSizing n (es.map Op.add) = .ok g) :
    ∃ p r, g.iface.pageRankF A conv0 100 alpha0 = .ok p ∧ PR.IsPageRank n (PR.walkE n (fun e => e ∈ es)) alpha0 r ∧
      PR.dist1 (PR.vec n p) r ≤ n / 45000 ∧ (n ≤ 22500 → PR.dist1 (PR.vec n p) r ≤ 1 / 2) := by
  obtain ⟨p, p1, _, _, r, r1, _, r2⟩ := C97_rank_partial hK hF h2 hn hes hne hr hA conv0_nonneg conv0_le alpha0_nonneg
    (by unfold alpha0; norm_num) 100 rfl
  have hn0 : (2 : ℚ) ≤ n := by exact_mod_cast h2
  have hT : (1 : ℚ) / (PR.sources n (fun e => e ∈ es) : ℚ) ≤ 1 := by
    rcases Nat.eq_zero_or_pos (PR.sources n (fun e => e ∈ es)) with h | h
    · rw [h]; norm_num
    · have : (1 : ℚ) ≤ (PR.sources n (fun e => e ∈ es) : ℚ) := by exact_mod_cast h
      rw [div_le_one (by linarith)]; exact this
  have hqn := mul_le_mul_of_nonneg_left hT (by linarith : (0 : ℚ) ≤ n)
  have hq0 : 0 ≤ (n : ℚ) * (1 / (PR.sources n (fun e => e ∈ es) : ℚ)) := by positivity
  generalize (n : ℚ) * (1 / (PR.sources n (fun e => e ∈ es) : ℚ)) = q at r2 hqn hq0
  have hmain : PR.dist1 (PR.vec n p) r ≤ n / 45000 := by
    have h8 : (0 : ℚ) < 1 - alpha0 := by unfold alpha0; norm_num
    refine le_of_mul_le_mul_left (le_trans (?_ : _ ≤ (1 - alpha0) * (n / 45000)) (le_refl _)) h8
    rcases r2 with r2 | r2
    · refine le_trans r2 ?_
      have h5 : alpha0 ^ 100 ≤ 1 / 160000 := by unfold alpha0; norm_num
      have h6 : alpha0 ^ 100 * ((1 + 1 / 2 ^ 53) * q + 1) ≤ 1 / 160000 * ((1 + 1 / 2 ^ 53) * q + 1) :=
        mul_le_mul_of_nonneg_right h5 (by positivity)
      have h7 := mul_le_mul_of_nonneg_left h6 h8.le
      refine le_trans (add_le_add_left h7 _) ?_
      unfold alpha0
      linarith
    · refine le_trans r2 ?_
      unfold alpha0 conv0
      linarith
  refine ⟨p, r, p1, r1, hmain, fun h => le_trans hmain ?_⟩
  have : (n : ℚ) ≤ 22500 := by exact_mod_cast h
  linarith

/-- C97 is false in general, in every such arithmetic: on 2100000 vertices with a self-loop each, `pageRank()` gives rank 0
to all of them but vertex 0, although all have PageRank `1/n`. -/
theorem C97_refuted (hK : K.Lawful) (hF : K.ForcedPure) {A : FArith ℚ} (hA : A.IEEE) : ¬ C97_Full K A := by
  intro hfull
  have hes : ∀ e ∈ loops 2100000, InRange 2100000 e := by
    intro e he
    obtain ⟨h1, h2⟩ := mem_loops.1 he
    exact ⟨by rw [h1]; exact h2, h2⟩
  have hne : loops 2100000 ≠ [] := by
    have : ((0, 0) : Edge) ∈ loops 2100000 := mem_loops.2 ⟨rfl, by norm_num⟩
    exact List.ne_nil_of_mem this
  obtain ⟨g, h1, _, _⟩ := built hK hF (n := 2100000) (by norm_num) (by norm_num) hes
  obtain ⟨p, r, p1, hr, hd⟩ := hfull _ _ g (by norm_num) (by norm_num) hne hes h1
  have ha1 : alpha0 < 1 := by unfold alpha0; norm_num
  obtain ⟨p', q1, q2, q3⟩ := C97_early hK hF (by norm_num) (by norm_num) hes hne h1 hA (conv := conv0) (alpha := alpha0)
    conv0_nonneg conv0_le alpha0_nonneg ha1 (by rw [sources_loops]; unfold conv0; norm_num) 100 (by norm_num)
  rw [p1] at q1; cases q1
  have hv : ∀ v : Fin 2100000, v ≠ 0 → |PR.vec 2100000 p v - r v| = 1 / 2100000 := by
    intro v h0
    have h3 := q3 v v.2 (fun h => h0 (Fin.ext h)) (fun h => h0 (Fin.ext (mem_loops.1 h).1.symm))
    unfold PR.vec
    rw [h3, rank_loops ha1 hr v]
    simp
  have hsum : ∑ v ∈ Finset.univ.erase (0 : Fin 2100000), |PR.vec 2100000 p v - r v| ≤ PR.dist1 (PR.vec 2100000 p) r :=
    Finset.sum_le_sum_of_subset_of_nonneg (Finset.erase_subset _ _) (fun _ _ _ => abs_nonneg _)
  rw [Finset.sum_congr rfl (fun v hvv => hv v (Finset.ne_of_mem_erase hvv)), Finset.sum_const,
    Finset.card_erase_of_mem (Finset.mem_univ _), Finset.card_univ, Fintype.card_fin, nsmul_eq_mul] at hsum
  norm_num at hsum
  linarith

/-- Instance: vertices 0 and 1 point at each other and at 2. The default call in the arithmetic of `double`s, to the last
bit; the PageRank for this `alpha` is not a `double`. -/
example : (∃ g : DK refK2, run refK2 realSizing 3 [.add (0, 1), .add (1, 0), .add (0, 2), .add (1, 2)] = .ok g ∧
      decide (g.iface.pageRankF IEEE.arith conv0 100 alpha0 = .ok [1314939150373325 / 4503599627370496,
        1314939150373325 / 4503599627370496, 3747579543271761 / 9007199254740992]) = true) ∧
    IEEE.arith.IEEE ∧ (3 : Nat) ≤ 22500 ∧ ∀ e ∈ [((0 : Nat), (1 : Nat)), (1, 0), (0, 2), (1, 2)], InRange 3 e :=
  ⟨real_check (by decide) (by decide +kernel), IEEE.arith_ieee, by norm_num, by decide⟩

/-- Instance of the early return: three self-loops and `convergence = 1`: the code ranks vertex 0 and no other. The
rank is the `double` nearest to a third. -/
example : (∃ g : DK refK2, run refK2 realSizing 3 ((loops 3).map Op.add) = .ok g ∧
      decide (g.iface.pageRankF IEEE.arith 1 100 (1 / 2) = .ok [6004799503160661 / 18014398509481984, 0, 0]) = true) ∧
    (20001 / 10000 : ℚ) < (PR.sources 3 (fun e => e ∈ loops 3) : ℚ) * 1 :=
  ⟨real_check (n := 3) (ops := (loops 3).map Op.add)
    (f := fun g => decide (g.iface.pageRankF IEEE.arith 1 100 (1 / 2) = .ok [6004799503160661 / 18014398509481984, 0, 0]))
    (by decide) (by decide +kernel), by rw [sources_loops]; norm_num⟩

/-- The arithmetic rounds: in it a tenth and a fifth do not add up to three tenths. -/
example : IEEE.arith.add (IEEE.rnd 53 (1 / 10)) (IEEE.rnd 53 (1 / 5)) ≠ IEEE.rnd 53 (3 / 10) := by decide +kernel

end DK2
