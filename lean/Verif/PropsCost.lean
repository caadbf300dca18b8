import Verif.Cost
import Verif.RealTab
/-!
# C72: amortised cost of insertions into a `DKtree`
-/

namespace DK2
open DK

variable {K : K2Impl}

namespace DK

/-- A graph built by `DKtree(n)` and the insertions `es`, with the number of edges written into trees and
the number of flushes. -/
def runC (K : K2Impl) (S : Sizing) (n : Nat) (es : List Edge) : Res (DK K × Nat × Nat) := do
  let g ← create K S n
  insertsC S g es

/-- All insertions from a state whose buffer holds at most some earlier capacity: edges written (against the potential) and
flushes. `L` bounds the capacities below, `R` the next level and the excess of the buffer against a level. -/
theorem insertsC_slack (hK : K.Lawful) (hF : K.ForcedPure) {S : Sizing} (hT : S.Top) {n : Nat} (h2 : 2 ≤ n)
    {R : ℝ} (hR0 : 0 ≤ R) {L : Nat} : ∀ (es : List Edge) {g : DK K} {G : Edge → Prop}, g.Fresh →
      Exact g G → g.nv = n → (∃ m, n ≤ m ∧ m ≤ max n g.nTotal ∧ g.c0.size ≤ S.maxsz m 0) →
      (∀ e ∈ es, InRange n e) →
      (∀ m i, n ≤ m → m ≤ max n (g.nTotal + es.length) → i < RS → L ≤ S.maxsz m 0 ∧ ∀ m0, n ≤ m0 → m0 ≤ m →
        ((S.maxsz m (i + 1) + (S.maxsz m0 0 - S.maxsz m 0) : Nat) : ℝ) ≤ R * S.maxsz m i) →
      ∃ (g' : DK K) (w c : Nat), insertsC S g es = .ok (g', w, c) ∧
        runFrom S g (inserts es) = .ok g' ∧
        (w : ℝ) + 9 * R * ((RS * g'.c0.size + phi K g'.ks : Nat) : ℝ) ≤
          9 * R * ((RS * g.c0.size + phi K g.ks + RS * es.length : Nat) : ℝ) ∧
        c * (L + 1) + g'.c0.size ≤ g.c0.size + es.length := by
  intro es
  induction es with
  | nil =>
    intro g G _ _ _ _ _ _
    exact ⟨g, 0, 0, rfl, rfl, by simp, by simp⟩
  | cons e es ih =>
    intro g G hf hx hnv hb hes hR
    have he : InRange g.nv e := by rw [hnv]; exact hes e (by simp)
    obtain ⟨g1, h3, hf1⟩ := addEdge_total hK hF hT hx.inv hx.cnt hf he (by omega)
    obtain ⟨hx1, hnv1⟩ := hx.step hK hF S (o := .add e) he (by intro e' h; cases h) h3
    have h4 := addEdgeC_fst S g e
    rw [h3] at h4
    obtain ⟨⟨g1', w1, c1⟩, h5, h6⟩ := Res.bind_eq_ok.1 h4
    simp only [Res.ok.injEq] at h6
    subst h6
    have hsp := addEdgeC_spec hK hF hx.inv hf he h5
    rw [hnv] at hsp
    obtain ⟨m0, hm0, hm0', hb⟩ := hb
    have hnT : g1'.nTotal ≤ g.nTotal + 1 ∧ ∃ m, n ≤ m ∧ m ≤ max n g1'.nTotal ∧ g1'.c0.size ≤ S.maxsz m 0 := by
      rcases hsp with ⟨_, _, _, h | ⟨a, b, _, d⟩⟩ | ⟨_, a, b, _⟩
      · subst h; exact ⟨by omega, m0, hm0, hm0', hb⟩
      · exact ⟨by omega, max n g.nTotal, by omega, by omega, d⟩
      · exact ⟨by omega, n, by omega, by omega, by omega⟩
    obtain ⟨g2, w2, c2, k1, k2, k3, k4⟩ := ih hf1 hx1 (by rw [hnv1, hnv]) hnT.2
      (fun e' h => hes e' (by simp [h]))
      (fun m i hm hm' hi => hR m i hm (by have := hnT.1; simp only [List.length_cons]; omega) hi)
    refine ⟨g2, w1 + w2, c1 + c2, ?_, ?_, ?_, ?_⟩
    · show (g.addEdgeC S e >>= fun r => insertsC S r.1 es >>= fun q =>
        .ok (q.1, r.2.1 + q.2.1, r.2.2 + q.2.2)) = _
      rw [h5]
      simp only [Res.ok_bind, k1]
    · show (g.addEdge S e >>= fun g' => runFrom S g' (inserts es)) = .ok g2
      rw [h3]; exact k2
    · have h9 : 0 ≤ 9 * R := by positivity
      have hstep : (w1 : ℝ) + 9 * R * ((RS * g1'.c0.size + phi K g1'.ks : Nat) : ℝ) ≤
          9 * R * ((RS * g.c0.size + phi K g.ks + RS : Nat) : ℝ) := by
        rcases hsp with ⟨a, _, b, _⟩ | ⟨_, _, _, _, _, i, rise, a, b, c, d⟩
        · rw [a]
          have := mul_le_mul_of_nonneg_left (show ((RS * g1'.c0.size + phi K g1'.ks : Nat) : ℝ) ≤
            ((RS * g.c0.size + phi K g.ks + RS : Nat) : ℝ) by exact_mod_cast b) h9
          simpa using this
        · have e1 : (w1 : ℝ) ≤ 9 * ((S.maxsz (max n g.nTotal) (i + 1) +
              (S.maxsz m0 0 - S.maxsz (max n g.nTotal) 0) : Nat) : ℝ) := by
            exact_mod_cast b.trans (Nat.mul_le_mul_left _ (by omega))
          have e2 := (hR (max n g.nTotal) i (by omega) (by omega) a).2 m0 hm0 hm0'
          have e3 : R * (S.maxsz (max n g.nTotal) i : ℝ) ≤ R * (rise : ℝ) :=
            mul_le_mul_of_nonneg_left (by exact_mod_cast c) hR0
          have e4 : ((RS * g1'.c0.size + phi K g1'.ks : Nat) : ℝ) + (rise : ℝ) ≤
            ((RS * g.c0.size + phi K g.ks + RS : Nat) : ℝ) := by exact_mod_cast d
          have e5 := mul_le_mul_of_nonneg_left e4 h9
          rw [mul_add] at e5
          linarith
      have e6 : 9 * R * ((RS * g1'.c0.size + phi K g1'.ks + RS * es.length : Nat) : ℝ) =
          9 * R * ((RS * g1'.c0.size + phi K g1'.ks : Nat) : ℝ) + 9 * R * ((RS * es.length : Nat) : ℝ) := by
        push_cast; ring
      have e7 : 9 * R * ((RS * g.c0.size + phi K g.ks + RS * (e :: es).length : Nat) : ℝ) =
          9 * R * ((RS * g.c0.size + phi K g.ks + RS : Nat) : ℝ) + 9 * R * ((RS * es.length : Nat) : ℝ) := by
        simp only [List.length_cons]; push_cast; ring
      rw [e6] at k3
      rw [e7]
      push_cast at k3 hstep ⊢
      linarith
    · simp only [List.length_cons]
      have hmono := (hR (max n g.nTotal) 0 (by omega) (by omega) (by unfold RS; omega)).1
      rcases hsp with ⟨_, b, _, h | ⟨a, _⟩⟩ | ⟨a, b, _, _, d, _⟩
      · subst h b; simp only [Nat.zero_add]; omega
      · subst b; simp only [Nat.zero_add]; omega
      · subst a
        rw [Nat.add_mul]; omega

theorem insertsC_bound (hK : K.Lawful) (hF : K.ForcedPure) {S : Sizing} (hT : S.Top) {n : Nat} (h2 : 2 ≤ n)
    (hM : S.MonoFrom n) {R : ℝ} (hR0 : 0 ≤ R) (es : List Edge) {g : DK K} {G : Edge → Prop} (hf : g.Fresh)
    (hx : Exact g G) (hnv : g.nv = n) (hb : g.c0.size ≤ S.maxsz (max n g.nTotal) 0) (hes : ∀ e ∈ es, InRange n e)
    (hR : ∀ m i, n ≤ m → m ≤ max n (g.nTotal + es.length) → i < RS →
      (S.maxsz m (i + 1) : ℝ) ≤ R * S.maxsz m i) :
    ∃ (g' : DK K) (w c : Nat), insertsC S g es = .ok (g', w, c) ∧
      runFrom S g (inserts es) = .ok g' ∧
      (w : ℝ) + 9 * R * ((RS * g'.c0.size + phi K g'.ks : Nat) : ℝ) ≤
        9 * R * ((RS * g.c0.size + phi K g.ks + RS * es.length : Nat) : ℝ) ∧
      c * (S.maxsz n 0 + 1) + g'.c0.size ≤ g.c0.size + es.length :=
  insertsC_slack hK hF hT h2 hR0 (L := S.maxsz n 0) es hf hx hnv ⟨max n g.nTotal, by omega, by omega, hb⟩ hes
    fun m i hm hm' hi => ⟨hM n m (by omega) hm, fun m0 h1 h2 => by
      rw [Nat.sub_eq_zero_of_le (hM m0 m h1 h2), Nat.add_zero]
      exact hR m i hm hm' hi⟩

end DK

/-- Neighbouring thresholds of the code differ by at most the factor `2·(log2 N)^(1/4)`. -/
theorem realSizing_ratio {m N i : Nat} (h8 : 8 ≤ m) (hN : m ≤ N) :
    (realSizing.maxsz m (i + 1) : ℝ) ≤ 2 * (Real.logb 2 N) ^ (1 / 4 : ℝ) * realSizing.maxsz m i := by
  have hm2 : (2 : ℝ) ≤ m := by exact_mod_cast (by omega : 2 ≤ m)
  have hL1 : 1 ≤ Real.logb 2 m := logb_pos (by omega)
  have hL0 : 0 < Real.logb 2 m := by linarith
  have hLN : Real.logb 2 m ≤ Real.logb 2 N :=
    Real.logb_le_logb_of_le (by norm_num) (by linarith) (by exact_mod_cast hN)
  set L := Real.logb 2 (m : ℝ) with hL
  have hr1 : 1 ≤ L ^ (1 / 4 : ℝ) := Real.one_le_rpow hL1 (by norm_num)
  have hrN : L ^ (1 / 4 : ℝ) ≤ (Real.logb 2 N) ^ (1 / 4 : ℝ) :=
    Real.rpow_le_rpow hL0.le hLN (by norm_num)
  set a := (2 * m : ℝ) / L ^ (2 - (i : ℝ) * (1 / 4)) with ha
  have hstep : (2 * m : ℝ) / L ^ (2 - ((i + 1 : ℕ) : ℝ) * (1 / 4)) = a * L ^ (1 / 4 : ℝ) := by
    have e : (2 : ℝ) - (i : ℝ) * (1 / 4) = (2 - ((i + 1 : ℕ) : ℝ) * (1 / 4)) + 1 / 4 := by
      push_cast; ring
    rw [ha, e, Real.rpow_add hL0]
    have h1 : L ^ (1 / 4 : ℝ) ≠ 0 := by positivity
    have h2 : L ^ (2 - ((i + 1 : ℕ) : ℝ) * (1 / 4)) ≠ 0 := by positivity
    field_simp
  have hb1 : (1 : ℝ) ≤ (⌊a⌋₊ : ℝ) := by
    have h1 : realSizing.maxsz m 0 ≤ ⌊a⌋₊ := by
      show ⌊(2 * m : ℝ) / (Real.logb 2 m) ^ (2 - ((0 : ℕ) : ℝ) * (1 / 4))⌋₊ ≤ ⌊a⌋₊
      apply Nat.floor_le_floor
      rw [ha]
      have : L ^ (2 - (i : ℝ) * (1 / 4)) ≤ L ^ (2 - ((0 : ℕ) : ℝ) * (1 / 4)) := by
        apply Real.rpow_le_rpow_of_exponent_le hL1
        have : (0 : ℝ) ≤ (i : ℝ) := by positivity
        push_cast
        linarith
      gcongr
    have h2 := realSizing_mono 8 m (Nat.le_refl _) h8
    have h3 : realSizing.maxsz 8 0 = 1 := by rw [← tab_maxsz (by omega) (by omega) (by omega)]; rfl
    have : 1 ≤ ⌊a⌋₊ := by omega
    exact_mod_cast this
  have hbase : realSizing.maxsz m i = ⌊a⌋₊ := rfl
  have hnext : realSizing.maxsz m (i + 1) = ⌊a * L ^ (1 / 4 : ℝ)⌋₊ := by
    rw [← hstep]; rfl
  rw [hbase, hnext]
  have ha0 : 0 ≤ a := by positivity
  have hfl : (⌊a * L ^ (1 / 4 : ℝ)⌋₊ : ℝ) ≤ a * L ^ (1 / 4 : ℝ) := Nat.floor_le (by positivity)
  have hlt : a < (⌊a⌋₊ : ℝ) + 1 := Nat.lt_floor_add_one a
  calc (⌊a * L ^ (1 / 4 : ℝ)⌋₊ : ℝ) ≤ a * L ^ (1 / 4 : ℝ) := hfl
    _ ≤ (2 * (⌊a⌋₊ : ℝ)) * L ^ (1 / 4 : ℝ) := by
        apply mul_le_mul_of_nonneg_right _ (by positivity)
        linarith
    _ ≤ (2 * (⌊a⌋₊ : ℝ)) * (Real.logb 2 N) ^ (1 / 4 : ℝ) := by
        apply mul_le_mul_of_nonneg_left hrN (by positivity)
    _ = 2 * (Real.logb 2 N) ^ (1 / 4 : ℝ) * (⌊a⌋₊ : ℝ) := by ring

/-- C72: on a `DKtree` with `n ≥ 8` vertices, whatever edges are inserted in whatever order (duplicates
included), all insertions together write at most `144·(log2 N)^(1/4)` edges into trees per insertion, where
`N` is the larger of the number of vertices and of insertions, and flush the buffer at most once every
`MAXSZ(n,0)+1` insertions. The counters do not influence the graph. -/
theorem C72_amortized (hK : K.Lawful) (hF : K.ForcedPure) {n : Nat} (hn : 8 ≤ n) {es : List Edge}
    (hes : ∀ e ∈ es, InRange n e) :
    ∃ (g : DK K) (w c : Nat), runC K realSizing n es = .ok (g, w, c) ∧
      run K realSizing n (es.map Op.add) = .ok g ∧
      (w : ℝ) ≤ 144 * (Real.logb 2 (max n es.length : Nat)) ^ (1 / 4 : ℝ) * es.length ∧
      c * (realSizing.maxsz n 0 + 1) ≤ es.length := by
  obtain ⟨gi, i1, i2, i3, i4⟩ := run_inserts hK hF realSizing_top (n := n) (by omega) (es := []) (by simp)
  obtain ⟨hgi, hn1⟩ := run_nil (show run K realSizing n [] = .ok gi from i1)
  have hM : realSizing.MonoFrom n := fun m m' h h' => realSizing_mono m m' (by omega) h'
  have hL : 0 ≤ Real.logb 2 (max n es.length : Nat) := by
    have := logb_pos (m := max n es.length) (by omega)
    linarith
  have hR0 : 0 ≤ 2 * (Real.logb 2 (max n es.length : Nat)) ^ (1 / 4 : ℝ) := by positivity
  subst hgi
  have hs0 : (init K realSizing n).c0.size = 0 := rfl
  have ht0 : (init K realSizing n).nTotal = 0 := rfl
  obtain ⟨g, w, c, k1, k2, k3, k4⟩ := insertsC_bound hK hF realSizing_top (by omega) hM hR0 es i2 i4 i3
    (by rw [hs0]; omega) hes (fun m i hm hm' _ => by
      rw [ht0] at hm'
      exact realSizing_ratio (by omega) (by omega))
  have hcr : create K realSizing n = .ok (init K realSizing n) := by unfold create; rw [if_neg hn1]
  refine ⟨g, w, c, ?_, ?_, ?_, ?_⟩
  · unfold runC; rw [hcr]; exact k1
  · show (create K realSizing n >>= fun g => runFrom realSizing g (inserts es)) = .ok g
    rw [hcr]; exact k2
  · have hphi : phi K (init K realSizing n).ks = 0 := phi_replicate _
    rw [hs0, hphi] at k3
    have h1 : 0 ≤ 9 * (2 * (Real.logb 2 (max n es.length : Nat)) ^ (1 / 4 : ℝ)) *
      ((RS * g.c0.size + phi K g.ks : Nat) : ℝ) := by positivity
    have h2 : ((RS * 0 + 0 + RS * es.length : Nat) : ℝ) = 8 * (es.length : ℝ) := by
      simp [RS]
    rw [h2] at k3
    linarith
  · rw [hs0] at k4; omega

/-- Instance: 10 insertions on 8 vertices (buffer of one edge) flush five times. -/
example : ∃ g : DK refK2, ∃ w, runC refK2 realSizing 8
    [(0, 1), (0, 2), (0, 3), (0, 4), (0, 5), (1, 0), (1, 1), (1, 2), (1, 3), (1, 4)] = .ok (g, w, 5) ∧ 0 < w := by
  have hc : check (runC refK2 hybSizing 8
    [(0, 1), (0, 2), (0, 3), (0, 4), (0, 5), (1, 0), (1, 1), (1, 2), (1, 3), (1, 4)])
      (fun r => decide (0 < r.2.1 ∧ r.2.2 = 5)) = true := by decide +kernel
  rw [← realSizing_eq_hyb] at hc
  obtain ⟨⟨g, w, c⟩, hg, hc⟩ := check_iff.1 hc
  simp only [decide_eq_true_eq] at hc
  obtain ⟨h1, rfl⟩ := hc
  exact ⟨g, w, hg, h1⟩

end DK2
