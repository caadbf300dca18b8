import Verif.Machine
/-!
# C98: the ranks are numbers

`pageRank` on `double`s with infinities and NaN (`Machine.lean`): finite on every graph with an edge, infinite on every graph
without.
-/

namespace DK2
open DK GraphI
namespace Mach
variable {G : GraphI}

/-- On a graph that shows its edges and has one, the machine computes what `IEEE.arith` computes: nothing overflows. -/
theorem pageRankD_eq {E : Edge → Prop} (h : G.Faithful E) (hn : G.nodes ≤ 9999999) (hne : ∃ e, E e) {conv alpha : ℚ}
    (hc : 0 ≤ conv) (hc1 : conv ≤ 2 ^ 500) (ha : 0 ≤ alpha) (ha1 : alpha ≤ 1 - 1 / 10 ^ 6) (k : Nat) {p : List ℚ}
    (hp : G.pageRankF IEEE.arith conv k alpha = .ok p) :
    G.pageRankD (.fin conv) k (.fin alpha) = .ok (p.map Dbl.fin) := by
  choose! L hL using h.listNb
  obtain ⟨e, he⟩ := hne
  have hrg := h.range _ he
  have hn0 : 0 < G.nodes := by have := hrg.1; omega
  have ha2 : alpha < 1 := by
    have : (0 : ℚ) < 1 / 10 ^ 6 := by positivity
    linarith
  have c := PR.ieee_cfg (F := ℚ) IEEE.arith_ieee hn0 hn ha ha2
  have hT : ∀ x, x < G.nodes → ∀ y ∈ L x, y < G.nodes := fun x hx y hy => (h.range _ (((hL x hx).2.2 y).1 hy)).2
  have hLe : L e.1 ≠ [] := fun hh => by
    have := ((hL e.1 hrg.1).2.2 e.2).2 he
    rw [hh] at this; cases this
  obtain ⟨T, hTdef⟩ : ∃ T, T = ((List.range G.nodes).filter (fun x => !(L x).isEmpty)).length := ⟨_, rfl⟩
  have hT0 : 0 < T := by
    rw [hTdef]
    apply List.length_pos_of_mem (a := e.1)
    rw [List.mem_filter, List.mem_range]
    refine ⟨hrg.1, ?_⟩
    cases h' : L e.1 with
    | nil => exact absurd h' hLe
    | cons _ _ => rfl
  have hTn : T ≤ G.nodes := by
    have := List.length_filter_le (fun x => !(L x).isEmpty) (List.range G.nodes)
    rw [hTdef]; simpa using this
  obtain ⟨i0, i1, i2⟩ := inv_pos hT0
  rw [PR.pageRankF_unfold (fun x hx => (hL x hx).1), ← hTdef] at hp
  have hnF : (G.nodes : ℚ) ≤ 9999999 := by exact_mod_cast hn
  have hn1 : (1 : ℚ) ≤ G.nodes := by exact_mod_cast hn0
  have hreps := PR.ieee_reps (F := ℚ) hn
  have hrdel := PR.ieee_rdel (F := ℚ) hn
  have hsim := dLoop_sim c hT (fun x hx => (hL x hx).2.1) (conv := conv) (X := 2 * G.nodes)
    (by rw [abs_of_nonneg hc]; exact hc1) (by linarith)
    (by
      refine le_trans (?_ : _ ≤ (2 : ℚ) * (2 * 9999999) + 1) (by norm_num)
      clear hc1
      linarith)
    (by
      have : 4 * ((1 : ℚ) / 4000000) = 1 / 10 ^ 6 := by norm_num
      linarith) (by
      have : 4 * ((1 : ℚ) / 10 ^ 20) ≤ 1 / 10 ^ 6 := by norm_num
      linarith) k (pr := List.replicate G.nodes (IEEE.arith.inv T)) (by simp)
      (fun v => by rw [PR.fStart_vec]; exact i0.le) (by
        rw [PR.fStart_sum, mul_comm]
        exact mul_le_mul_of_nonneg_right i1 (by linarith)) hp
  unfold pageRankD
  rw [outLinks_ok (L := L) (fun x hx => (hL x (List.mem_range.1 hx)).1)]
  simp only [Res.ok_bind]
  have hlen : ((((List.range G.nodes).map L).filter (fun l => !l.isEmpty)).length) = T := by
    rw [hTdef, List.filter_map, List.length_map]; rfl
  rw [hlen, i2, ← emb_replicate]
  exact hsim

end Mach

variable {K : K2Impl}

/-- C98, the full statement: on every graph, the ranks that `pageRank()` returns by default are finite numbers. -/
def C98_Full (K : K2Impl) : Prop :=
  ∀ (n : Nat) (es : List Edge) (g : DK K), 2 ≤ n → n ≤ 9999999 → (∀ e ∈ es, InRange n e) →
    DK.run K realSizing n (es.map Op.add) = .ok g →
    ∃ p, g.iface.pageRankD (.fin conv0) 100 (.fin alpha0) = .ok p ∧ p.length = n ∧ ∀ x ∈ p, ∃ q, x = .fin q

/-- C98 on every insertion history with an edge, for `0 ≤ alpha ≤ 1 - 1/10^6`, any threshold and number of sweeps: the
machine's ranks are finite, not negative and those of the rounding arithmetic `IEEE.arith`, so that C97 bounds their
distance to the PageRank. -/
theorem C98_finite_partial (hK : K.Lawful) (hF : K.ForcedPure) {n : Nat} (h2 : 2 ≤ n) (hn : n ≤ 9999999) {es : List Edge}
    (hes : ∀ e ∈ es, InRange n e) (hne : es ≠ []) {g : DK K} (hr : DK.run K realSizing n (es.map Op.add) = .ok g)
    {conv alpha : ℚ} (hc : 0 ≤ conv) (hc1 : conv ≤ 2 ^ 500) (ha : 0 ≤ alpha) (ha1 : alpha ≤ 1 - 1 / 10 ^ 6) (k : Nat) :
    ∃ p, g.iface.pageRankD (.fin conv) k (.fin alpha) = .ok (p.map Dbl.fin) ∧ p.length = n ∧ (∀ x ∈ p, 0 ≤ x) ∧
      g.iface.pageRankF IEEE.arith conv k alpha = .ok p := by
  obtain ⟨g', h1, h3, hf⟩ := built hK hF h2 hn hes
  rw [hr] at h1; cases h1
  obtain ⟨p, p1, p2, p3, _⟩ := C97_rank_partial hK hF h2 hn hes hne hr IEEE.arith_ieee hc hc1 ha ha1 k rfl
  obtain ⟨e, he⟩ := List.exists_mem_of_ne_nil es hne
  exact ⟨p, Mach.pageRankD_eq hf (by rw [h3]; exact hn) ⟨e, he⟩ hc hc1 ha ha1 k p1, p2, p3, p1⟩

/-- C98 with the default arguments: on a graph with an edge the ranks returned by the machine are finite, and within
`n/45000` of the PageRank. -/
theorem C98_default_partial (hK : K.Lawful) (hF : K.ForcedPure) {n : Nat} (h2 : 2 ≤ n) (hn : n ≤ 9999999) {es : List Edge}
    (hes : ∀ e ∈ es, InRange n e) (hne : es ≠ []) {g : DK K} (hr : DK.run K realSizing n (es.map Op.add) = .ok g) :
    ∃ p r, g.iface.pageRankD (.fin conv0) 100 (.fin alpha0) = .ok (p.map Dbl.fin) ∧ p.length = n ∧
      PR.IsPageRank n (PR.walkE n (fun e => e ∈ es)) alpha0 r ∧ PR.dist1 (PR.vec n p) r ≤ n / 45000 := by
  obtain ⟨p, p1, p2, _, p3⟩ := C98_finite_partial hK hF h2 hn hes hne hr conv0_nonneg conv0_le alpha0_nonneg
    (by unfold alpha0; norm_num) 100
  obtain ⟨p', r, q1, q2, q3, _⟩ := C97_default_partial hK hF IEEE.arith_ieee h2 hn hes hne hr
  rw [p3] at q1; cases q1
  exact ⟨p, r, p1, p2, q2, q3⟩

/-- C98, the failure: on every graph without edges `pageRank` returns infinity for every vertex, for every threshold, number
of sweeps and `0 < alpha ≤ 1`. -/
theorem C98_empty (hK : K.Lawful) (hF : K.ForcedPure) {n : Nat} (h2 : 2 ≤ n) (hn : n ≤ 9999999) {g : DK K}
    (hr : DK.run K realSizing n [] = .ok g) (conv : Dbl) {alpha : ℚ} (ha : 0 < alpha) (ha1 : alpha ≤ 1) (k : Nat) :
    g.iface.pageRankD conv k (.fin alpha) = .ok (List.replicate n (.inf false)) := by
  obtain ⟨g', h1, h3, hf⟩ := built hK hF h2 hn (es := []) (by simp)
  have h1 : DK.run K realSizing n [] = .ok g' := h1
  rw [hr] at h1; cases h1
  have := Mach.pageRankD_empty (G := g.iface) (by rw [h3]; omega) (fun x hx => by
    obtain ⟨l, l1, _, l3⟩ := hf.listNb x hx
    rw [l1]
    congr 1
    exact List.eq_nil_iff_forall_not_mem.2 (fun y hy => by simpa using (l3 y).1 hy)) (conv := conv) ha ha1 k
  rwa [h3] at this

/-- C98 is false in general: the graph without edges. -/
theorem C98_refuted (hK : K.Lawful) (hF : K.ForcedPure) : ¬ C98_Full K := by
  intro hfull
  obtain ⟨g, h1, _, _⟩ := built hK hF (n := 2) (by norm_num) (by norm_num) (es := []) (by simp)
  obtain ⟨p, p1, p2, p3⟩ := hfull 2 [] g (by norm_num) (by norm_num) (by simp) h1
  rw [C98_empty hK hF (by norm_num) (by norm_num) h1 _ (by unfold alpha0; norm_num) (by unfold alpha0; norm_num)] at p1
  cases p1
  obtain ⟨q, hq⟩ := p3 (.inf false) (by simp)
  cases hq

/-- Instance with an edge: the default call on the graph of C97's instance. -/
example : ∃ g : DK refK2, run refK2 realSizing 3 [.add (0, 1), .add (1, 0), .add (0, 2), .add (1, 2)] = .ok g ∧
      decide (g.iface.pageRankD (.fin conv0) 100 (.fin alpha0) = .ok [.fin (1314939150373325 / 4503599627370496),
        .fin (1314939150373325 / 4503599627370496), .fin (3747579543271761 / 9007199254740992)]) = true :=
  real_check (by decide) (by decide +kernel)

/-- Instance without edges, computed. -/
example : ∃ g : DK refK2, run refK2 realSizing 3 [] = .ok g ∧
      decide (g.iface.pageRankD (.fin conv0) 100 (.fin alpha0) = .ok [.inf false, .inf false, .inf false]) = true :=
  real_check (by decide) (by decide +kernel)

/-- The machine has its NaN and its overflow: infinity minus infinity, zero times infinity, and the square of `2^1000`. -/
example : (Dbl.inf false).sub (.inf false) = .nan ∧ (Dbl.fin 0).mul (.inf true) = .nan ∧
    (Dbl.fin (-2 ^ 1000)).mul (.fin (2 ^ 1000)) = .inf true := by decide +kernel

end DK2
