import Verif.MunroQuery
import Verif.RealTab
import Verif.Witness
/-!
# Property theorems: `DKtree_delay_munro` (C41, C51–C55)
-/

namespace DK2
open DK Bits

namespace DKM

/-- The class with template argument `k` under the real formulas; `nd` is whether `NDEBUG` is defined.  The height
is `max 1 ⌈log_k n⌉` (union_support.hpp:51-52). -/
noncomputable def real (k : Nat) (nd : Bool) : MPar := ⟨k, fun n => max 1 (Nat.clog k n), realSizing, nd⟩

/-- The thresholds for 256 vertices, by table. -/
noncomputable def S256 : Sizing where
  maxsz m i := if m = 256 ∧ i < 9 then ([8, 13, 22, 38, 64, 107, 181, 304, 512][i]?).getD 0 else realSizing.maxsz m i
  rebuild := realSizing.rebuild

theorem real256 : ∀ i, i < 9 → realSizing.maxsz 256 i = ([8, 13, 22, 38, 64, 107, 181, 304, 512][i]?).getD 0 := by
  intro i hi
  have hd : ∀ i, i < 9 → (([8, 13, 22, 38, 64, 107, 181, 304, 512][i]?).getD 0) ^ 4 * 8 ^ (8 - i) ≤ (2 * 256) ^ 4 * 1 ^ (8 - i) ∧
      (2 * 256) ^ 4 * 1 ^ (8 - i) < (([8, 13, 22, 38, 64, 107, 181, 304, 512][i]?).getD 0 + 1) ^ 4 * 8 ^ (8 - i) := by
    decide
  exact maxsz_eq (a := 8) (b := 1) (c := 8) (d := 1) (by norm_num) (by omega) (by norm_num) (by norm_num)
    (by norm_num) (by norm_num) (hd i hi).1 (hd i hi).2

theorem realSizing_eq_256 : realSizing = S256 := by
  have h1 : realSizing.maxsz = S256.maxsz := by
    funext m i
    show _ = if m = 256 ∧ i < 9 then _ else _
    split
    · rename_i h; rw [h.1]; exact real256 i h.2
    · rfl
  have h2 : realSizing.rebuild = S256.rebuild := rfl
  cases hr : realSizing
  cases hs : S256
  rw [hr, hs] at h1 h2
  simp_all

/-- The real formulas: the buffer capacity shrinks by at most one as a graph of 3 vertices or more grows. -/
theorem real_near {n : Nat} (h : 3 ≤ n) : Near realSizing n := by
  have hs : ∀ m, m < 8 → 3 ≤ m → realSizing.maxsz m 0 ≤ 2 := by
    intro m h1 h2
    rw [hyb_maxsz (by omega) (by omega) (by omega)]
    revert h2
    revert m
    decide
  have hb : ∀ m, 3 ≤ m → 1 ≤ realSizing.maxsz m 0 := by
    intro m hm
    by_cases h8 : m < 8
    · rw [hyb_maxsz (by omega) (by omega) (by omega)]
      revert hm
      revert m
      decide
    · have h1 := realSizing_mono 8 m (le_refl _) (by omega)
      have h2 : realSizing.maxsz 8 0 = 1 := by rw [hyb_maxsz (by omega) (by omega) (by omega)]; rfl
      omega
  intro m m' hm hmm
  by_cases h8 : m < 8
  · have := hs m h8 (by omega); have := hb m' (by omega); omega
  · have := realSizing_mono m m' (by omega) hmm; omega

/-- `2m/log2(m)` is non-decreasing for `m ≥ 8`. -/
theorem realSizing_mono4 (m m' : Nat) (h1 : 8 ≤ m) (h2 : m ≤ m') : realSizing.maxsz m 4 ≤ realSizing.maxsz m' 4 := by
  show ⌊(2 * m : ℝ) / (Real.logb 2 m) ^ (2 - ((4 : ℕ) : ℝ) * (1 / 4))⌋₊ ≤
    ⌊(2 * m' : ℝ) / (Real.logb 2 m') ^ (2 - ((4 : ℕ) : ℝ) * (1 / 4))⌋₊
  have h8 : (8 : ℝ) ≤ m := by exact_mod_cast h1
  have hmm : (m : ℝ) ≤ m' := by exact_mod_cast h2
  have e : (2 : ℝ) - ((4 : ℕ) : ℝ) * (1 / 4) = ((1 : ℕ) : ℝ) := by norm_num
  rw [e, Real.rpow_natCast, Real.rpow_natCast, pow_one, pow_one]
  apply Nat.floor_le_floor
  have hexp : Real.exp 1 ≤ 8 := le_trans (Real.exp_le_exp.2 (by norm_num)) exp_two_le_eight
  have hanti := Real.log_div_self_antitoneOn (a := (m : ℝ)) (b := (m' : ℝ))
    (le_trans hexp h8) (le_trans hexp (le_trans h8 hmm)) hmm
  simp only at hanti
  have key : ∀ x : ℝ, 8 ≤ x → 2 * x / (Real.logb 2 x) = 2 * (Real.log 2) / (Real.log x / x) := by
    intro x hx
    have hl : 0 < Real.log x := Real.log_pos (by linarith)
    have hl2 : 0 < Real.log 2 := Real.log_pos (by norm_num)
    rw [Real.logb]
    field_simp
  rw [key _ h8, key _ (le_trans h8 hmm)]
  have hp : 0 < Real.log (m' : ℝ) / (m' : ℝ) := by
    apply div_pos (Real.log_pos (by linarith)) (by linarith)
  have : 0 < Real.log 2 := Real.log_pos (by norm_num)
  gcongr

/-- The estimate never cuts off `lim` bits: `geo` is the exact number, `% 2^32` what the program computes. -/
def EstFrom (k lim : Nat) : Prop := ∀ j, min lim (US.geo (k * k) j) ≤ US.geo (k * k) j % 2 ^ 32

/-- If the estimate of `J` levels is exact and further summands vanish modulo 2^32, nothing up to that estimate is cut
off. -/
theorem estFrom_sat {k J : Nat} (h0 : (k * k) ^ (J + 1) % 2 ^ 32 = 0) (hJ : US.geo (k * k) J < 2 ^ 32) :
    EstFrom k (US.geo (k * k) J) := by
  intro j
  by_cases hj : j ≤ J
  · have := US.geo_mono (k * k) hj
    rw [Nat.mod_eq_of_lt (by omega)]; exact min_le_right _ _
  · obtain ⟨i, rfl⟩ : ∃ i, j = J + i := ⟨j - J, by omega⟩
    have : ∀ i, US.geo (k * k) (J + i) % 2 ^ 32 = US.geo (k * k) J := by
      intro i
      induction i with
      | zero => exact Nat.mod_eq_of_lt hJ
      | succ i ih =>
        rw [← Nat.add_assoc, US.geo, Nat.add_mod, ih, show J + i + 1 = J + 1 + i by omega, pow_add, Nat.mul_mod, h0]
        simp only [Nat.zero_mul, Nat.zero_mod, Nat.add_zero]
        exact Nat.mod_eq_of_lt hJ
    rw [this]; exact min_le_left _ _

theorem estFrom_two : EstFrom 2 1431655764 := estFrom_sat (k := 2) (J := 15) (by norm_num) (by decide)
theorem estFrom_four : EstFrom 4 286331152 := estFrom_sat (k := 4) (J := 7) (by norm_num) (by decide)
theorem estFrom_eight : EstFrom 8 1090785344 := estFrom_sat (k := 8) (J := 5) (by norm_num) (by decide)
theorem estFrom_sixteen : EstFrom 16 16843008 := estFrom_sat (k := 16) (J := 3) (by norm_num) (by decide)

/-- The parameters of the real class are fine if the exact bounds on the two bit vectors are at most the estimates. -/
theorem real_ctx_est {k n N : Nat} (nd : Bool) (hk : 2 ≤ k) (hn : 2 ≤ n)
    (hT : min (k * k * ((max 1 (Nat.clog k n) - 1) * N)) (US.geo (k * k) (max 1 (Nat.clog k n) - 1)) ≤
      US.geo (k * k) (max 1 (Nat.clog k n)) % 2 ^ 32)
    (hL : min (k * k * N) ((k * k) ^ max 1 (Nat.clog k n)) ≤ US.geo (k * k) (max 1 (Nat.clog k n) + 1) % 2 ^ 32) :
    Ctx (real k nd) n N where
  hk := hk
  hh := le_max_left _ _
  hn := le_trans (Nat.le_pow_clog (by show 1 < k; omega) n) (Nat.pow_le_pow_right (by show 0 < k; omega) (le_max_right _ _))
  fitT := hT
  fitL := hL
  two := hn

/-- Any bound on the number of insertions below which the estimate is right for all heights met. -/
theorem real_ctx_lim {k n N lim : Nat} (nd : Bool) (hk : 2 ≤ k) (hn : 2 ≤ n)
    (h1 : min lim (US.geo (k * k) (max 1 (Nat.clog k n))) ≤ US.geo (k * k) (max 1 (Nat.clog k n)) % 2 ^ 32)
    (h2 : min lim (US.geo (k * k) (max 1 (Nat.clog k n) + 1)) ≤ US.geo (k * k) (max 1 (Nat.clog k n) + 1) % 2 ^ 32)
    (hN : k * k * (max 1 (Nat.clog k n) * N) ≤ lim) : Ctx (real k nd) n N := by
  have hh : 1 ≤ max 1 (Nat.clog k n) := le_max_left _ _
  refine real_ctx_est nd hk hn (le_trans (le_min ?_ ?_) h1) (le_trans (le_min ?_ ?_) h2)
  · refine le_trans (min_le_left _ _) (le_trans ?_ hN)
    exact Nat.mul_le_mul_left _ (Nat.mul_le_mul_right _ (Nat.sub_le _ _))
  · exact le_trans (min_le_right _ _) (US.geo_mono _ (Nat.sub_le _ _))
  · refine le_trans (min_le_left _ _) (le_trans ?_ hN)
    exact Nat.mul_le_mul_left _ (Nat.le_mul_of_pos_left _ hh)
  · refine le_trans (min_le_right _ _) ?_
    rw [US.geo]
    obtain ⟨j, hj⟩ : ∃ j, max 1 (Nat.clog k n) = j + 1 := ⟨max 1 (Nat.clog k n) - 1, by omega⟩
    rw [hj]
    exact le_trans (US.pow_le_geo _ _) (Nat.le_add_right _ _)

/-- The parameters of the real class are fine for up to `N` insertions if the 32-bit size estimate of the union is:
for `k = 2` that is about `3.5·10⁸ / log₂ n` insertions. -/
theorem real_ctx {k n N : Nat} (nd : Bool) (hk : 2 ≤ k) (hn : 2 ≤ n)
    (hf : (k * k) ^ (max 1 (Nat.clog k n) + 2) ≤ 2 ^ 32 ∨ (k = 2 ∧ max 1 (Nat.clog 2 n) * N ≤ 357913941)) :
    Ctx (real k nd) n N := by
  rcases hf with h | ⟨rfl, h⟩
  · have hb : 2 ≤ k * k := by nlinarith
    refine real_ctx_lim (lim := k * k * (max 1 (Nat.clog k n) * N)) nd hk hn ?_ ?_ (le_refl _)
    · rw [US.geo_exact hb (le_trans (Nat.pow_le_pow_right (by omega) (by omega)) h)]; exact min_le_right _ _
    · rw [US.geo_exact hb h]; exact min_le_right _ _
  · exact real_ctx_lim nd hk hn (estFrom_two _) (estFrom_two _) (by show 4 * _ ≤ _; omega)

/-- The same for the other powers of two: about `1.8·10⁷ / log₄ n`, `1.7·10⁷ / log₈ n`, `65793 / log₁₆ n` insertions. -/
theorem real_ctx_pow {k n N : Nat} (nd : Bool) (hn : 2 ≤ n)
    (hf : (k = 4 ∧ max 1 (Nat.clog 4 n) * N ≤ 17895697) ∨ (k = 8 ∧ max 1 (Nat.clog 8 n) * N ≤ 17043521) ∨
      (k = 16 ∧ max 1 (Nat.clog 16 n) * N ≤ 65793)) : Ctx (real k nd) n N := by
  rcases hf with ⟨rfl, h⟩ | ⟨rfl, h⟩ | ⟨rfl, h⟩
  · exact real_ctx_lim nd (by norm_num) hn (estFrom_four _) (estFrom_four _) (by show 16 * _ ≤ _; omega)
  · exact real_ctx_lim nd (by norm_num) hn (estFrom_eight _) (estFrom_eight _) (by show 64 * _ ≤ _; omega)
  · exact real_ctx_lim nd (by norm_num) hn (estFrom_sixteen _) (estFrom_sixteen _) (by show 256 * _ ≤ _; omega)

/-- For every arity the tree class allows and every number of vertices a 32-bit `uint` holds, at least
`16843008 / (k² log_k n)` insertions are fine. -/
theorem real_ctx_any {k n N : Nat} (nd : Bool) (hk : 2 ≤ k) (hk' : k ≤ 16) (hn : 2 ≤ n) (hn' : n ≤ 2 ^ 32)
    (hN : k * k * (max 1 (Nat.clog k n) * N) ≤ 16843008) : Ctx (real k nd) n N := by
  have key : ∀ k < 17, 2 ≤ k → ∀ j < 34, k ^ (j - 2) < 2 ^ 32 →
      min 16843008 (US.geo (k * k) j) ≤ US.geo (k * k) j % 2 ^ 32 := by
    decide +kernel
  have hc : Nat.clog k n ≤ 32 := by
    rw [Nat.clog_le_iff_le_pow (by omega)]
    exact le_trans hn' (Nat.pow_le_pow_left hk 32)
  have hp : k ^ (max 1 (Nat.clog k n) - 1) < 2 ^ 32 := by
    rcases Nat.le_total (Nat.clog k n) 1 with h | h
    · rw [max_eq_left h]; norm_num
    · rw [max_eq_right h]
      exact lt_of_lt_of_le (Nat.pow_pred_clog_lt_self (by omega) (by omega)) hn'
  refine real_ctx_lim nd hk hn (key k (by omega) hk _ (by omega) ?_) (key k (by omega) hk _ (by omega) ?_) hN
  · exact lt_of_le_of_lt (Nat.pow_le_pow_right (by omega) (by omega)) hp
  · exact lt_of_le_of_lt (Nat.pow_le_pow_right (by omega) (by omega)) hp

/-- For a power of two there is no limit on the number of insertions where it does not matter whether the estimate is
exceeded. -/
theorem real_cond {k n N : Nat} (nd : Bool) (hk : 2 ≤ k) (hk2 : k * k ∣ 2 ^ 32) (hn : 2 ≤ n) : Cond (real k nd) n N where
  base := real_ctx_est nd hk hn (by simp) (by simp)
  est := Or.inl hk2

/-- The four powers of two the tree class allows. -/
theorem real_cond_pow {k n N : Nat} (nd : Bool) (hk : k = 2 ∨ k = 4 ∨ k = 8 ∨ k = 16) (hn : 2 ≤ n) :
    Cond (real k nd) n N := by
  rcases hk with rfl | rfl | rfl | rfl <;> exact real_cond nd (by norm_num) (by norm_num) hn

/-- 18 edges on 256 vertices. -/
def w18 : List Edge := (List.range 18).map (fun i => (14 * i, 11 * i))

/-- `real 2 nd` with the thresholds by table. -/
noncomputable def P256 (nd : Bool) : MPar := ⟨2, fun n => max 1 (Nat.clog 2 n), S256, nd⟩

theorem real_eq_256 (nd : Bool) : real 2 nd = P256 nd := by
  unfold real P256; rw [realSizing_eq_256]

/-- The limit on the number of insertions for `k = 2`, met by every history below 3.5·10⁷ insertions on up to 1024
vertices. -/
example : Ctx (real 2 false) 1024 35000000 := real_ctx _ (by norm_num) (by norm_num)
  (Or.inr ⟨rfl, by rw [show Nat.clog 2 1024 = 10 by decide +kernel]; norm_num⟩)

/-- For `k = 4`: two million insertions on 65536 vertices. -/
example : Ctx (real 4 false) 65536 2000000 := real_ctx_pow _ (by norm_num)
  (Or.inl ⟨rfl, by rw [show Nat.clog 4 65536 = 8 by decide +kernel]; norm_num⟩)

/-- For `k = 7`, a million vertices and 42000 insertions. -/
example : Ctx (real 7 true) 1000000 42000 := real_ctx_any _ (by norm_num) (by norm_num) (by norm_num) (by norm_num)
  (by rw [show Nat.clog 7 1000000 = 8 by decide +kernel]; norm_num)

/-- For `k = 16` and 65536 vertices exactly 65793 edges are covered. -/
theorem ctx_sixteen (nd : Bool) : Ctx (real 16 nd) 65536 65793 := by
  have h : max 1 (Nat.clog 16 65536) = 4 := by rw [show Nat.clog 16 65536 = 4 by decide +kernel]; rfl
  refine real_ctx_est nd (by norm_num) (by norm_num) ?_ ?_ <;> rw [h] <;> decide

/-! ## C41 every inserted edge is visible -/

/-- C41: after every insertion history that returns, `contains` is true for every inserted edge. -/
def C41_Full : Prop :=
  ∀ (nd : Bool) (n : Nat) (es : List Edge) (d : DKM), 2 ≤ n → (∀ e ∈ es, InRange n e) →
    run (real 2 nd) n (inserts es) = .ok d → ∀ e ∈ es, d.contains (real 2 nd) e = .ok true

/-- After 18 insertions on 256 vertices, eight of them are invisible. -/
theorem C41_refuted : ¬ C41_Full := by
  intro h
  have hc : check (run (P256 true) 256 (inserts w18)) (fun d =>
      decide (d.contains (P256 true) (126, 99) = .ok false)) = true := by decide +kernel
  rw [← real_eq_256] at hc
  obtain ⟨d, h1, h2⟩ := check_iff.1 hc
  have h3 := h true 256 w18 d (by norm_num) (by decide) h1 (126, 99) (by decide)
  rw [of_decide_eq_true h2] at h3
  cases h3

/-- C41 for builds with assertions, every `k` and every threshold function: `contains` always returns; it is true
for an inserted edge except for at most `MAXSZ(max(n,count),0)+1` of them (the batch of a pending merge), none when
no merge is pending; it is never true for another edge. -/
theorem C41_partial {P : MPar} (hnd : P.nd = false) (hT : P.S.Top) {n N : Nat} (hc : Cond P n N)
    (hnear : Near P.S n) {ops : List Op} (hr : OpsInRange n ops) (hN : (added ops).length ≤ N) {d : DKM}
    (h : run P n ops = .ok d) :
    ∃ hidden : List Edge, hidden.length ≤ P.S.maxsz (max n d.numberEdges) 0 + 1 ∧
      (∀ e ∈ hidden, Op.add e ∈ ops) ∧ (d.us.finish = true → hidden = []) ∧
      ∀ e, InRange n e → ∃ b, d.contains P e = .ok b ∧ (b = true ↔ Op.add e ∈ ops ∧ e ∉ hidden) := by
  obtain ⟨es, p, t⟩ := run_ok hT hc hr hN h
  have hcap := t.cap hnear
  refine ⟨(batch p).filter (fun e => decide (d.tmpEdge ≠ e ∧ e ∉ d.c0.live ∧ e ∉ lvEdges es)), ?_, ?_, ?_, ?_⟩
  · cases hp : p with
    | none => simp [batch]
    | some q =>
      subst hp
      have h1 := (hcap _ (le_refl _)).2 q rfl
      have ht : d.tmpEdge ∈ q.F := t.inv.st.2.2.2.2.2.2.1
      have h2 : (q.F.filter (fun e => decide (d.tmpEdge ≠ e ∧ e ∉ d.c0.live ∧ e ∉ lvEdges es))).length < q.F.length := by
        refine List.length_filter_lt_length_iff_exists.2 ⟨_, ht, by simp⟩
      show List.length (List.filter _ q.F) ≤ _
      unfold DKM.numberEdges
      omega
  · intro e he
    exact mem_added.1 (t.sound e (Or.inr (Or.inl (List.mem_filter.1 he).1)))
  · intro hf
    rw [t.inv.finish_iff.1 hf]; rfl
  · intro e he
    obtain ⟨b, h1, h2⟩ := t.inv.contains hc.base he
    refine ⟨b, h1, ?_⟩
    rw [h2, ← mem_added]
    simp only [List.mem_filter, decide_eq_true_eq, not_and, not_not]
    constructor
    · intro hs
      refine ⟨t.sound e (t.inv.seen_held hs), ?_⟩
      intro h3 h4 h5
      rw [mem_lvEdges]
      rcases hs with h6 | ⟨_, h6⟩ | h6
      · exact absurd h6 h5
      · exact absurd h6 h4
      · exact h6
    · rintro ⟨h3, h4⟩
      unfold seen
      rcases t.comp hnd e h3 with h5 | h5 | h5
      · exact Or.inl h5
      · by_cases h6 : d.tmpEdge = e
        · cases p with
          | none => cases h5
          | some q => exact Or.inr (Or.inl ⟨rfl, h6⟩)
        · by_cases h7 : e ∈ d.c0.live
          · exact Or.inl h7
          · exact Or.inr (Or.inr (mem_lvEdges.1 (h4 h5 h6 h7)))
      · exact Or.inr (Or.inr h5)

/-- The last inserted edge is always visible, in both builds. -/
theorem C41_last_partial {P : MPar} (hT : P.S.Top) {n N : Nat} (hc : Cond P n N) {ops : List Op} {e : Edge}
    (hr : OpsInRange n (ops ++ [.add e])) (hN : (added ops).length + 1 ≤ N) {d : DKM}
    (h : run P n (ops ++ [.add e]) = .ok d) : d.contains P e = .ok true := by
  rw [run_snoc, Res.bind_eq_ok] at h
  obtain ⟨d0, h1, h2⟩ := h
  have he : InRange n e := hr (.add e) (by simp)
  obtain ⟨es, p, t⟩ := run_ok hT hc (fun o ho => hr o (by simp [ho])) (by omega) h1
  have hhi := t.hi
  have key : ∀ d' es' p', MInv P n d' es' p' → seen d' es' p' e → d'.contains P e = .ok true := by
    intro d' es' p' hi hs
    obtain ⟨b, h3, h4⟩ := hi.contains hc.base he
    rw [h3, h4.2 hs]
  have hfl : ∀ (d' : DKM) es' p', held d' es' p' e → d'.c0.live = [] → d'.tmpEdge = e → seen d' es' p' e := by
    intro d' es' p' a1 a2 a3
    cases p' with
    | none =>
      rcases a1 with b1 | b1 | b1
      · exact Or.inl b1
      · cases b1
      · exact Or.inr (Or.inr b1)
    | some q => exact Or.inr (Or.inl ⟨rfl, a3⟩)
  change d0.addEdge P e = .ok d at h2
  rcases t.inv.addEdge_any hT hc.base (hc.mono (by omega)).est he with ⟨h3, _⟩ | ⟨d1, es1, p1, u, H⟩
  · rw [h3] at h2; cases h2
  rcases H with ⟨d', es', p', h3, h4, h5, h6⟩ | ⟨_, _, q, _, h7⟩
  · rw [h3] at h2; cases h2
    refine key _ _ _ h4 ?_
    rcases h6 with ⟨a1, rfl, rfl, rfl⟩ | ⟨_, _, ⟨_, a2, _⟩ | ⟨_, _, a2, a3, _⟩⟩
    · exact a1
    · left; rw [a2]; simp
    · exact hfl _ _ _ ((h5 e).2 (Or.inl rfl)) a2 a3
  · rcases h7 with ⟨_, h8⟩ | ⟨_, d', es', p', h8, h9, _, h10, _, h11, h12, _⟩
    · rw [h8] at h2; cases h2
    · rw [h8] at h2; cases h2
      exact key _ _ _ h9 (hfl _ _ _ h10 h11 h12)

/-- Non-vacuity: the hypotheses of `C41_partial` and `C41_last_partial` hold of a history that leaves a merge
pending. -/
example : ∃ d, run (real 2 false) 256 (inserts w18) = .ok d ∧ d.us.finish = false ∧
    (∀ N, Cond (real 2 false) 256 N) ∧ Near (real 2 false).S 256 ∧ (real 2 false).S.Top ∧ OpsInRange 256 (inserts w18) := by
  have hc : check (run (P256 false) 256 (inserts w18)) (fun d => !d.us.finish) = true := by decide +kernel
  rw [← real_eq_256] at hc
  obtain ⟨d, h1, h2⟩ := check_iff.1 hc
  exact ⟨d, h1, by simpa using h2, fun N => real_cond _ (by norm_num) (by norm_num) (by norm_num),
    real_near (by norm_num), realSizing_top, by decide⟩

/-! ## C51 exactness when no merge is pending -/

/-- C51: in a build with assertions, when no merge is pending, `contains` is exact. -/
theorem C51 {k n N : Nat} (hc : Cond (real k false) n N) {ops : List Op} (hr : OpsInRange n ops)
    (hN : (added ops).length ≤ N) {d : DKM} (h : run (real k false) n ops = .ok d) (hf : d.us.finish = true)
    {e : Edge} (he : InRange n e) : d.contains (real k false) e = .ok (decide (Op.add e ∈ ops)) := by
  obtain ⟨es, p, t⟩ := run_ok realSizing_top hc hr hN h
  have hp := t.inv.finish_iff.1 hf
  subst hp
  obtain ⟨b, h1, h2⟩ := t.inv.contains hc.base he
  rw [h1]
  have : seen d es none e ↔ Op.add e ∈ ops := by
    rw [← mem_added]
    constructor
    · intro hs; exact t.sound e (t.inv.seen_held hs)
    · intro ha
      rcases t.comp rfl e ha with h5 | h5 | h5
      · exact Or.inl h5
      · cases h5
      · exact Or.inr (Or.inr h5)
  rw [this] at h2
  cases b with
  | true => simp [h2.1 rfl]
  | false => have : Op.add e ∉ ops := fun hh => by cases h2.2 hh
             simp [this]

/-- In every build and every reachable state `contains` returns, and is true only of inserted edges. -/
theorem C51_sound {k n N : Nat} {nd : Bool} (hc : Cond (real k nd) n N) {ops : List Op} (hr : OpsInRange n ops)
    (hN : (added ops).length ≤ N) {d : DKM} (h : run (real k nd) n ops = .ok d) {e : Edge} (he : InRange n e) :
    ∃ b, d.contains (real k nd) e = .ok b ∧ (b = true → Op.add e ∈ ops) := by
  obtain ⟨es, p, t⟩ := run_ok realSizing_top hc hr hN h
  obtain ⟨b, h1, h2⟩ := t.inv.contains hc.base he
  exact ⟨b, h1, fun hb => mem_added.1 (t.sound e (t.inv.seen_held (h2.1 hb)))⟩

/-- Non-vacuity: 17 insertions (one merge done) end with no merge pending. -/
example : ∃ d, run (real 2 false) 256 (inserts (w18.take 17)) = .ok d ∧ d.us.finish = true ∧
    d.contains (real 2 false) (126, 99) = .ok true ∧ d.contains (real 2 false) (126, 100) = .ok false := by
  have hc : check (run (P256 false) 256 (inserts (w18.take 17))) (fun d => d.us.finish) = true := by decide +kernel
  rw [← real_eq_256] at hc
  obtain ⟨d, h1, h2⟩ := check_iff.1 hc
  have hx : Ctx (real 2 false) 256 17 := real_ctx _ (by norm_num) (by norm_num) (Or.inl (by decide +kernel))
  refine ⟨d, h1, h2, ?_, ?_⟩
  · rw [C51 hx.cond (by decide) (by decide) h1 h2 (by decide)]; decide
  · rw [C51 hx.cond (by decide) (by decide) h1 h2 (by decide)]; decide

/-! ## C52 list_neighbour -/

/-- C52: `list_neighbour(x)` lists each inserted successor of `x` once. -/
def C52_Full : Prop :=
  ∀ (nd : Bool) (n : Nat) (es : List Edge) (d : DKM), 2 ≤ n → (∀ e ∈ es, InRange n e) →
    run (real 2 nd) n (inserts es) = .ok d → ∀ x, x < n →
    ∃ l, d.listNeighbour (real 2 nd) x = .ok l ∧ l.Nodup ∧ ∀ y, y ∈ l ↔ (x, y) ∈ es

/-- On an empty graph `list_neighbour(0)` is `[0]`. -/
theorem C52_refuted : ¬ C52_Full := by
  intro h
  have hc : check (run (P256 true) 256 (inserts [])) (fun d =>
      decide (d.listNeighbour (P256 true) 0 = .ok [0])) = true := by decide +kernel
  rw [← real_eq_256] at hc
  obtain ⟨d, h1, h2⟩ := check_iff.1 hc
  obtain ⟨l, h3, _, h4⟩ := h true 256 [] d (by norm_num) (by simp) h1 0 (by norm_num)
  rw [of_decide_eq_true h2] at h3
  cases h3
  have := (h4 0).1 (by simp)
  cases this

/-- With a merge pending, a visible edge is missing from the list. -/
theorem C52_refuted_pending : ∃ d, run (real 2 true) 256 (inserts w18) = .ok d ∧
    d.contains (real 2 true) (238, 187) = .ok true ∧ d.listNeighbour (real 2 true) 238 = .ok [] := by
  have hc : check (run (P256 true) 256 (inserts w18)) (fun d => decide
      (d.contains (P256 true) (238, 187) = .ok true ∧ d.listNeighbour (P256 true) 238 = .ok [])) = true := by
    decide +kernel
  rw [← real_eq_256] at hc
  obtain ⟨d, h1, h2⟩ := check_iff.1 hc
  exact ⟨d, h1, of_decide_eq_true h2⟩

/-- C52, what is listed (builds with assertions, histories whose edge count is right, such as those that insert no
edge twice): with no merge pending, each inserted successor once, plus the edge that triggered the last merge once
more (initially the phantom `(0,0)`); with a merge pending, each visible successor once, but not the edge that
triggered it. -/
theorem C52_partial {P : MPar} (hnd : P.nd = false) (hT : P.S.Top) {n N : Nat} (hc : Cond P n N) {ops : List Op}
    (hr : OpsInRange n ops) (hN : (added ops).length ≤ N) {d : DKM} (h : run P n ops = .ok d)
    (hcnt : d.numberEdges = (added ops).dedup.length) :
    (d.tmpEdge = (0, 0) ∨ Op.add d.tmpEdge ∈ ops) ∧
    ∀ x, x < n → ∃ l, d.listNeighbour P x = .ok l ∧ (∀ y ∈ l, y < n) ∧
      ∀ y, y < n → ∃ b, d.contains P (x, y) = .ok b ∧
      l.count y = if d.us.finish then (if b then 1 else 0) + (if d.tmpEdge = (x, y) then 1 else 0)
        else (if b ∧ d.tmpEdge ≠ (x, y) then 1 else 0) := by
  obtain ⟨es, p, t⟩ := run_ok hT hc hr hN h
  have hnod := t.nodup (t.comp hnd) hcnt
  have htwo := hc.base.two
  refine ⟨?_, ?_⟩
  · rcases t.tmp with h1 | h1
    · exact Or.inl h1
    · exact Or.inr (mem_added.1 h1)
  intro x hx
  obtain ⟨l, h1, h2⟩ := t.inv.listNeighbour hc.base hx
  have hG : ∀ e ∈ added ops, InRange n e := fun e he => hr _ (mem_added.1 he)
  refine ⟨l, h1, ?_, ?_⟩
  · intro y hy
    have hp := List.count_pos_iff.2 hy
    rw [h2] at hp
    by_contra hcon
    have hr0 : ∀ e, held d es p e → e ≠ (x, y) := by
      rintro e he rfl
      exact hcon (hG _ (t.sound _ he)).2
    have a1 : (x, y) ∉ d.c0.live := fun hh => hr0 _ (Or.inl hh) rfl
    have a2 : (x, y) ∉ lvEdges es := fun hh => hr0 _ (Or.inr (Or.inr (mem_lvEdges.1 hh))) rfl
    have a3 : d.tmpEdge ≠ (x, y) := by
      rcases t.tmp with b1 | b1
      · rw [b1]; intro hh; cases hh; omega
      · intro hh; rw [hh] at b1; exact hcon (hG _ b1).2
    rw [List.count_eq_zero_of_not_mem a1, List.count_eq_zero_of_not_mem a2] at hp
    simp [a3] at hp
  · intro y hy
    obtain ⟨b, h3, h4⟩ := t.inv.contains hc.base (e := (x, y)) ⟨hx, hy⟩
    refine ⟨b, h3, ?_⟩
    rw [h2]
    have hle := List.nodup_iff_count_le_one.1 hnod (x, y)
    unfold allEdges at hle
    rw [List.count_append, List.count_append] at hle
    have hin : ∀ L : List Edge, L.count (x, y) ≤ 1 → L.count (x, y) = if (x, y) ∈ L then 1 else 0 := by
      intro L hL
      split
      · rename_i hm; have := List.count_pos_iff.2 hm; omega
      · rename_i hm; exact List.count_eq_zero_of_not_mem hm
    have e1 := hin d.c0.live (by omega)
    have e2 := hin (lvEdges es) (by omega)
    have e3 := hin (batch p) (by omega)
    cases p with
    | none =>
      rw [t.inv.st.1]
      simp only [if_true, true_and]
      congr 1
      have hb : b = true ↔ ((x, y) ∈ d.c0.live ∨ (x, y) ∈ lvEdges es) := by
        rw [h4, mem_lvEdges]; unfold seen; simp
      rw [e1, e2] at hle ⊢
      by_cases m1 : (x, y) ∈ d.c0.live <;> by_cases m2 : (x, y) ∈ lvEdges es <;> simp [m1, m2] at hb hle ⊢ <;>
        simp [hb]
    | some q =>
      have ht : d.tmpEdge ∈ q.F := t.inv.st.2.2.2.2.2.2.1
      rw [t.inv.st.2.1.fin]
      have hb : b = true ↔ ((x, y) ∈ d.c0.live ∨ d.tmpEdge = (x, y) ∨ (x, y) ∈ lvEdges es) := by
        rw [h4, mem_lvEdges]; unfold seen; simp
      simp only [batch] at e3 hle
      rw [e1, e2, e3] at hle
      rw [e1, e2]
      by_cases m3 : d.tmpEdge = (x, y)
      · rw [m3] at ht
        simp only [ht, if_true] at hle
        by_cases m1 : (x, y) ∈ d.c0.live <;> by_cases m2 : (x, y) ∈ lvEdges es <;> simp [m1, m2] at hle ⊢
        simp [m3]
      · by_cases m1 : (x, y) ∈ d.c0.live <;> by_cases m2 : (x, y) ∈ lvEdges es <;> simp [m1, m2, m3] at hb hle ⊢ <;>
          simp [hb]

/-- C52, soundness in every build and for every history: apart from the phantom `(0,0)`, only inserted edges are
listed. -/
theorem C52_sound_partial {P : MPar} (hT : P.S.Top) {n N : Nat} (hc : Cond P n N) {ops : List Op}
    (hr : OpsInRange n ops) (hN : (added ops).length ≤ N) {d : DKM} (h : run P n ops = .ok d) {x : Nat} (hx : x < n) :
    ∃ l, d.listNeighbour P x = .ok l ∧ ∀ y ∈ l, Op.add (x, y) ∈ ops ∨ (x, y) = (0, 0) := by
  obtain ⟨es, p, t⟩ := run_ok hT hc hr hN h
  obtain ⟨l, h1, h2⟩ := t.inv.listNeighbour hc.base hx
  refine ⟨l, h1, ?_⟩
  intro y hy
  have hp := List.count_pos_iff.2 hy
  rw [h2] at hp
  by_contra hcon
  rw [not_or, ← mem_added] at hcon
  have a1 : (x, y) ∉ d.c0.live := fun hh => hcon.1 (t.sound _ (Or.inl hh))
  have a2 : (x, y) ∉ lvEdges es := fun hh => hcon.1 (t.sound _ (Or.inr (Or.inr (mem_lvEdges.1 hh))))
  have a3 : d.tmpEdge ≠ (x, y) := by
    rcases t.tmp with b1 | b1
    · rw [b1]; exact fun hh => hcon.2 hh.symm
    · intro hh; rw [hh] at b1; exact hcon.1 b1
  rw [List.count_eq_zero_of_not_mem a1, List.count_eq_zero_of_not_mem a2] at hp
  simp [a3] at hp

/-! ## C53 the edge count -/

/-- C53: `get_number_edges` is the number of distinct edges inserted. -/
def C53_Full : Prop :=
  ∀ (nd : Bool) (n : Nat) (es : List Edge) (d : DKM), 2 ≤ n → (∀ e ∈ es, InRange n e) →
    run (real 2 nd) n (inserts es) = .ok d → d.numberEdges = es.dedup.length

/-- Inserting an edge again while the merge that holds it is pending counts it twice. -/
theorem C53_refuted : ¬ C53_Full := by
  intro h
  have hc : check (run (P256 true) 256 (inserts (w18 ++ [(126, 99)]))) (fun d =>
      decide (d.numberEdges = 19)) = true := by decide +kernel
  rw [← real_eq_256] at hc
  obtain ⟨d, h1, h2⟩ := check_iff.1 hc
  have h3 := h true 256 (w18 ++ [(126, 99)]) d (by norm_num) (by decide) h1
  rw [of_decide_eq_true h2] at h3
  revert h3
  decide

/-- C53: in every build the count is at least the number of distinct edges inserted and at most the number of
`add_edge` calls. -/
theorem C53_bounds_partial {P : MPar} (hT : P.S.Top) {n N : Nat} (hc : Cond P n N) {ops : List Op}
    (hr : OpsInRange n ops) (hN : (added ops).length ≤ N) {d : DKM} (h : run P n ops = .ok d) :
    (added ops).dedup.length ≤ d.numberEdges ∧ d.numberEdges ≤ (added ops).length := by
  obtain ⟨es, p, t⟩ := run_ok hT hc hr hN h
  exact ⟨t.lo, t.hi⟩

/-- C53 for histories that insert no edge twice. -/
theorem C53_distinct_partial {P : MPar} (hT : P.S.Top) {n N : Nat} (hc : Cond P n N) {ops : List Op}
    (hr : OpsInRange n ops) (hN : (added ops).length ≤ N) (hd : (added ops).Nodup) {d : DKM}
    (h : run P n ops = .ok d) : d.numberEdges = (added ops).length := by
  have := C53_bounds_partial hT hc hr hN h
  rw [hd.dedup] at this
  omega

/-- Non-vacuity of `C52_partial` and `C53_distinct_partial`: 18 distinct insertions, a merge pending. -/
example : (added (inserts w18)).Nodup ∧ ∃ d, run (real 2 false) 256 (inserts w18) = .ok d ∧
    d.numberEdges = (added (inserts w18)).dedup.length ∧ d.us.finish = false := by
  refine ⟨by decide, ?_⟩
  have hc : check (run (P256 false) 256 (inserts w18)) (fun d => !d.us.finish) = true := by decide +kernel
  rw [← real_eq_256] at hc
  obtain ⟨d, h1, h2⟩ := check_iff.1 hc
  refine ⟨d, h1, ?_, by simpa using h2⟩
  have hx : Ctx (real 2 false) 256 18 := real_ctx _ (by norm_num) (by norm_num) (Or.inl (by decide +kernel))
  rw [C53_distinct_partial realSizing_top hx.cond (by decide) (by decide) (by decide) h1]
  decide

/-! ## C54 add_edge returns -/

/-- C54: every history on every graph returns. -/
def C54_Full : Prop :=
  ∀ (nd : Bool) (k n N : Nat) (ops : List Op), Ctx (real k nd) n N → OpsInRange n ops → (added ops).length ≤ N →
    ∃ d, run (real k nd) n ops = .ok d

/-- C51 for `k ≥ 3` and both builds: with no merge pending, `contains` is exact. -/
theorem C51_k3 {k n N : Nat} {nd : Bool} (hk : 3 ≤ k) (h3 : 3 ≤ n) (hc : Cond (real k nd) n N)
    {ops : List Op} (hr : OpsInRange n ops) (hN : (added ops).length ≤ N) {d : DKM} (h : run (real k nd) n ops = .ok d)
    (hf : d.us.finish = true) {e : Edge} (he : InRange n e) :
    d.contains (real k nd) e = .ok (decide (Op.add e ∈ ops)) := by
  have hL : RS ≤ (real k nd).k * (real k nd).k := by
    show 8 ≤ k * k
    have := Nat.mul_le_mul hk hk
    omega
  rcases run_returns_any realSizing_top hc.base (real_near h3) hL (Or.inl (le_refl _)) hr (le_refl _) (hc.mono hN).est with
    ⟨h1, _⟩ | ⟨d', es, p, h1, t, hh, _⟩
  · rw [h1] at h; cases h
  rw [h1] at h; cases h
  have hp := t.inv.finish_iff.1 hf
  subst hp
  obtain ⟨b, a1, a2⟩ := t.inv.contains hc.base he
  rw [a1]
  have : seen d es none e ↔ Op.add e ∈ ops := by
    rw [← mem_added]
    constructor
    · intro hs; exact t.sound e (t.inv.seen_held hs)
    · intro ha
      rcases hh e ha with h5 | h5 | h5
      · exact Or.inl h5
      · cases h5
      · exact Or.inr (Or.inr h5)
  rw [this] at a2
  cases b with
  | true => simp [a2.1 rfl]
  | false => have : Op.add e ∉ ops := fun hh => by cases a2.2 hh
             simp [this]

/-- C54 for `k ≥ 3`, both builds: every history returns (no assertion, exception or undefined behaviour). -/
theorem C54_k3_partial {k n N : Nat} {nd : Bool} (hk : 3 ≤ k) (h3 : 3 ≤ n) (hc : Ctx (real k nd) n N)
    {ops : List Op} (hr : OpsInRange n ops) (hN : (added ops).length ≤ N) :
    ∃ d, run (real k nd) n ops = .ok d ∧ ∀ e, InRange n e → d.us.finish = true →
      d.contains (real k nd) e = .ok (decide (Op.add e ∈ ops)) := by
  have hL : RS ≤ (real k nd).k * (real k nd).k := by
    show 8 ≤ k * k
    have := Nat.mul_le_mul hk hk
    omega
  obtain ⟨d, es, p, h1, _⟩ := run_returns realSizing_top hc (real_near h3) hL (Or.inl (le_refl _)) hr hN
  exact ⟨d, h1, fun e he hf => C51_k3 hk h3 hc.cond hr hN h1 hf he⟩

/-- C54 for `k = 2`: every history of fewer than `MAXSZ(n,4) ≈ 2n/log₂ n` insertions returns. -/
theorem C54_k2_partial {n N : Nat} {nd : Bool} (h8 : 8 ≤ n) (hc : Ctx (real 2 nd) n N)
    (hsz : N < realSizing.maxsz n 4) {ops : List Op} (hr : OpsInRange n ops) (hN : (added ops).length ≤ N) :
    ∃ d, run (real 2 nd) n ops = .ok d := by
  obtain ⟨d, _, _, h1, _⟩ := run_returns (L := 4) realSizing_top hc (real_near (by omega)) (le_refl _)
    (Or.inr (by
      intro m h1 h2
      have := realSizing_mono4 n m h8 h1
      exact lt_of_lt_of_le hsz this)) hr hN
  exact ⟨d, h1⟩

/-- C54, the only other outcome: in a build with assertions a history either returns or stops at
`assert(union_support.has_finish())`; in an `NDEBUG` build it returns. -/
theorem C54_outcome_partial {k n N : Nat} {nd : Bool} (hc : Ctx (real k nd) n N) {ops : List Op}
    (hr : OpsInRange n ops) (hN : (added ops).length ≤ N) :
    (nd = false ∧ run (real k nd) n ops = .abort) ∨ ∃ d, run (real k nd) n ops = .ok d := by
  rcases run_track realSizing_top hc hr hN with ⟨h1, h2, _⟩ | ⟨d, es, p, h1, _⟩
  · exact Or.inl ⟨h1, h2⟩
  · exact Or.inr ⟨d, h1⟩

/-- C54 for the powers of two and any number of insertions: a history returns, or stops at the assertion, or its number of
insertions exceeds the limit `Ctx` of the size estimate and it is undefined. -/
theorem C54_any_partial {k n : Nat} {nd : Bool} (hk : k = 2 ∨ k = 4 ∨ k = 8 ∨ k = 16) (hn : 2 ≤ n) {ops : List Op}
    (hr : OpsInRange n ops) :
    (∃ d, run (real k nd) n ops = .ok d) ∨ (nd = false ∧ run (real k nd) n ops = .abort) ∨
    (run (real k nd) n ops = .ub ∧ ¬ Ctx (real k nd) n (added ops).length) := by
  have hc : Cond (real k nd) n (added ops).length := real_cond_pow nd hk hn
  rcases run_track_any realSizing_top hc.base hr hc.est with h | ⟨h1, h2, _⟩ | ⟨d, es, p, h1, _⟩
  · exact Or.inr (Or.inr h)
  · exact Or.inr (Or.inl ⟨h1, h2⟩)
  · exact Or.inl ⟨d, h1⟩

/-- Non-vacuity of the two partial theorems. -/
example : Ctx (real 3 true) 700 1000000 ∧ Ctx (real 2 true) 256 63 ∧ 63 < realSizing.maxsz 256 4 := by
  refine ⟨real_ctx _ (by norm_num) (by norm_num) (Or.inl ?_), real_ctx _ (by norm_num) (by norm_num) (Or.inl ?_), ?_⟩
  · rw [show Nat.clog 3 700 = 6 by decide +kernel]; norm_num
  · decide +kernel
  · rw [real256 4 (by norm_num)]; decide

/-! ## C55 del_edge -/

/-- C55: after `del_edge(x,y)` the edge is absent. -/
def C55_Full : Prop :=
  ∀ (nd : Bool) (n : Nat) (ops : List Op) (e : Edge) (d : DKM), 2 ≤ n → OpsInRange n (ops ++ [.del e]) →
    run (real 2 nd) n (ops ++ [.del e]) = .ok d → d.contains (real 2 nd) e = .ok false

theorem C55_refuted : ¬ C55_Full := by
  intro h
  have hc : check (run (P256 true) 256 [.add (3, 5), .del (3, 5)]) (fun d =>
      decide (d.contains (P256 true) (3, 5) = .ok true)) = true := by decide +kernel
  rw [← real_eq_256] at hc
  obtain ⟨d, h1, h2⟩ := check_iff.1 hc
  have h3 := h true 256 [.add (3, 5)] (3, 5) d (by norm_num) (by decide) h1
  rw [of_decide_eq_true h2] at h3
  cases h3

/-- C55, what `del_edge` does: a history ends in the same state as the history without its `del_edge` calls, for
every parameter. -/
theorem C55_noop_partial (P : MPar) (n : Nat) (ops : List Op) : run P n ops = run P n (inserts (added ops)) := by
  unfold run
  congr 1
  funext d
  induction ops generalizing d with
  | nil => rfl
  | cons o os ih =>
    cases o with
    | add e =>
      simp only [added, inserts, List.map_cons, runFrom]
      congr 1
      funext d'
      exact ih d'
    | del e =>
      simp only [added, runFrom, step, delEdge, Res.ok_bind]
      exact ih d

end DKM
end DK2
