import Verif.PropsRank
/-!
# C96: `clustering_coefficient`

Algorithm.hpp:196-199, over an ordered field.
-/

namespace DK2
open DK GraphI

variable {K : K2Impl}

section
variable {F : Type} [Field F] [LinearOrder F]

/-- `clustering_coefficient()` (Algorithm.hpp:196-199): the count divided by `m (m - 1)`, `none` for a division by zero.
Simplified: exact arithmetic; the code computes in `float`. -/
def GraphI.clustering (F : Type) [Field F] [LinearOrder F] (G : GraphI) : Res (Option F) := do
  let c ← G.triangles
  if (G.nEdges : F) * ((G.nEdges : F) - 1) = 0 then .ok none
  else .ok (some ((c : F) / ((G.nEdges : F) * ((G.nEdges : F) - 1))))

end

/-! ## Specification -/

/-- A path of two edges through three vertices. -/
def Path2 (E : Edge → Prop) (a b c : Nat) : Prop := a ≠ b ∧ b ≠ c ∧ a ≠ c ∧ E (a, b) ∧ E (b, c)

/-- A path of two edges whose ends are joined. -/
def Closed2 (E : Edge → Prop) (a b c : Nat) : Prop := Path2 E a b c ∧ E (a, c)

/-- C96: the coefficient of a graph with a path of two edges is the share of these paths that are closed. -/
def C96_Full (F : Type) [Field F] [LinearOrder F] (K : K2Impl) : Prop :=
  ∀ (n : Nat) (es : List Edge) (g : DK K), 2 ≤ n → n ≤ 9999999 → (∀ e ∈ es, InRange n e) →
    DK.run K realSizing n (es.map Op.add) = .ok g → 0 < countTriples n (Path2 (fun e => e ∈ es)) →
    g.iface.clustering F = .ok (some ((countTriples n (Closed2 (fun e => e ∈ es)) : F) /
      (countTriples n (Path2 (fun e => e ∈ es)) : F)))

/-! ## The count is small -/

theorem heavyTriples_le {n m : Nat} {E : Edge → Prop} {es : List Edge} (hr : ∀ e, E e → InRange n e) (hlen : es.length = m)
    (hnd : es.Nodup) (hE : ∀ e, e ∈ es ↔ E e) :
    countTriples n (HeavyTriple n m E) ≤ Nat.sqrt (m - 1) * m := by
  classical
  unfold countTriples
  have hsub : ((Finset.range n ×ˢ (Finset.range n ×ˢ Finset.range n)).filter
      (fun t => HeavyTriple n m E t.1 t.2.1 t.2.2)).image (fun t => ((t.1, t.2.1) : Edge)) ⊆ es.toFinset := by
    intro e he
    obtain ⟨t, ht, rfl⟩ := Finset.mem_image.1 he
    rw [List.mem_toFinset, hE]
    exact (Finset.mem_filter.1 ht).2.1
  refine le_trans (Finset.card_le_mul_card_image (f := fun t => ((t.1, t.2.1) : Edge)) _ (Nat.sqrt (m - 1)) ?_)
    (Nat.mul_le_mul_left _ (le_trans (Finset.card_le_card hsub) ?_))
  · intro e he
    obtain ⟨t, ht, rfl⟩ := Finset.mem_image.1 he
    obtain ⟨_, _, _, hlight, _⟩ := (Finset.mem_filter.1 ht).2
    have h1 : outDeg n E t.1 ≤ Nat.sqrt (m - 1) := by
      rw [Nat.le_sqrt]; omega
    refine le_trans ?_ h1
    unfold outDeg
    refine Finset.card_le_card_of_injOn (fun s => s.2.2) ?_ ?_
    · intro s hs
      obtain ⟨hs1, hs2⟩ := Finset.mem_filter.1 (Finset.mem_coe.1 hs)
      obtain ⟨hs3, hs4⟩ := Finset.mem_filter.1 hs1
      have hs5 : s.1 = t.1 := (Prod.mk.inj hs2).1
      rw [Finset.mem_coe, Finset.mem_filter, Finset.mem_range]
      have := hs4.2.1
      rw [hs5] at this
      exact ⟨(hr _ this).2, this⟩
    · intro s hs s' hs' heq
      have h2 := (Finset.mem_filter.1 (Finset.mem_coe.1 hs)).2
      have h3 := (Finset.mem_filter.1 (Finset.mem_coe.1 hs')).2
      have h4 := h2.trans h3.symm
      have h5 : s.1 = s'.1 := (Prod.mk.inj h4).1
      have h6 : s.2.1 = s'.2.1 := (Prod.mk.inj h4).2
      exact Prod.ext h5 (Prod.ext h6 heq)
  · rw [List.toFinset_card_of_nodup hnd, hlen]

section
variable {F : Type} [Field F] [LinearOrder F] [IsStrictOrderedRing F]

/-- C96, what the code returns on any graph of `m ≥ 2` edges that shows its edges: a number `q` in `[0, 1]` with
`q² (m - 1) ≤ 1`, and never 1 if `m ≥ 3`; with fewer than two edges the division is `0/0`. -/
theorem clustering_bounds {G : GraphI} {E : Edge → Prop} (h : G.Faithful E) :
    (G.nEdges ≤ 1 → G.triangles = .ok 0 ∧ G.clustering F = .ok none) ∧
    (2 ≤ G.nEdges → ∃ q : F, G.clustering F = .ok (some q) ∧ 0 ≤ q ∧ q ≤ 1 ∧ q * q * ((G.nEdges : F) - 1) ≤ 1 ∧
      (3 ≤ G.nEdges → q < 1) ∧
      q * ((G.nEdges : F) * ((G.nEdges : F) - 1)) = ((countTriples G.nodes (HeavyTriple G.nodes G.nEdges E) % 2 ^ 32 : Nat) : F)) := by
  obtain ⟨es, e1, e2, e3⟩ := h.nEdges
  have hc := heavyTriples_le h.range e1 e2 e3
  have ht := triangles_eq h
  constructor
  · intro hm
    have h0 : countTriples G.nodes (HeavyTriple G.nodes G.nEdges E) = 0 := by
      have : Nat.sqrt (G.nEdges - 1) = 0 := by
        have : G.nEdges - 1 = 0 := by omega
        rw [this]; rfl
      rw [this, Nat.zero_mul] at hc
      omega
    rw [h0] at ht
    refine ⟨ht, ?_⟩
    unfold GraphI.clustering
    rw [ht]
    have : (G.nEdges : F) * ((G.nEdges : F) - 1) = 0 := by
      rcases Nat.lt_or_ge G.nEdges 1 with h1 | h1
      · have : G.nEdges = 0 := by omega
        rw [this]; simp
      · have : G.nEdges = 1 := by omega
        rw [this]; simp
    rw [Res.ok_bind, if_pos this]
  · intro hm
    have hm2 : (2 : F) ≤ (G.nEdges : F) := by exact_mod_cast hm
    have hpos : 0 < (G.nEdges : F) * ((G.nEdges : F) - 1) := mul_pos (by linarith) (by linarith)
    obtain ⟨c, hcdef⟩ : ∃ c, c = countTriples G.nodes (HeavyTriple G.nodes G.nEdges E) % 2 ^ 32 := ⟨_, rfl⟩
    have hcle : c ≤ Nat.sqrt (G.nEdges - 1) * G.nEdges := by
      rw [hcdef]; exact le_trans (Nat.mod_le _ _) hc
    have hsq : c * c ≤ G.nEdges * G.nEdges * (G.nEdges - 1) := by
      have h1 := Nat.mul_le_mul hcle hcle
      have h2 := Nat.sqrt_le (G.nEdges - 1)
      calc c * c ≤ _ := h1
        _ = G.nEdges * G.nEdges * (Nat.sqrt (G.nEdges - 1) * Nat.sqrt (G.nEdges - 1)) := by ring
        _ ≤ _ := Nat.mul_le_mul_left _ h2
    have hsqF : (c : F) * c ≤ (G.nEdges : F) * G.nEdges * ((G.nEdges : F) - 1) := by
      have := (Nat.cast_le (α := F)).2 hsq
      rw [Nat.cast_mul, Nat.cast_mul, Nat.cast_mul, Nat.cast_sub (by omega), Nat.cast_one] at this
      exact this
    obtain ⟨q, hq⟩ : ∃ q : F, q = (c : F) / ((G.nEdges : F) * ((G.nEdges : F) - 1)) := ⟨_, rfl⟩
    have hq0 : 0 ≤ q := by rw [hq]; exact div_nonneg (Nat.cast_nonneg c) hpos.le
    have hqm : q * ((G.nEdges : F) * ((G.nEdges : F) - 1)) = c := by rw [hq]; exact div_mul_cancel₀ _ hpos.ne'
    have hqq : q * q * ((G.nEdges : F) - 1) ≤ 1 := by
      have h1 : (q * q * ((G.nEdges : F) - 1)) * ((G.nEdges : F) * G.nEdges * ((G.nEdges : F) - 1)) =
          (c : F) * c := by rw [← hqm]; ring
      have h2 : 0 < (G.nEdges : F) * G.nEdges * ((G.nEdges : F) - 1) :=
        mul_pos (mul_pos (by linarith) (by linarith)) (by linarith)
      by_contra hcon
      have h3 := mul_lt_mul_of_pos_right (not_le.1 hcon) h2
      rw [h1] at h3
      linarith
    refine ⟨q, ?_, hq0, ?_, hqq, ?_, by rw [hqm, hcdef]⟩
    · unfold GraphI.clustering
      rw [ht, Res.ok_bind, if_neg hpos.ne', ← hcdef, ← hq]
    · by_contra hcon
      have := not_le.1 hcon
      nlinarith
    · intro h3
      have h3' : (3 : F) ≤ (G.nEdges : F) := by exact_mod_cast h3
      by_contra hcon
      have := not_lt.1 hcon
      nlinarith

/-- C96 for `DKtree` after any insertions: with `m ≥ 2` distinct edges the result is a number `q` between 0 and 1, and
`q² (m - 1) ≤ 1`: the more edges, the closer to 0 it is, whatever the graph; with fewer edges the code divides 0 by 0. -/
theorem C96_range_partial (hK : K.Lawful) (hF : K.ForcedPure) {n : Nat} (h2 : 2 ≤ n) (hn : n ≤ 9999999) {es : List Edge}
    (hes : ∀ e ∈ es, InRange n e) {g : DK K} (hr : DK.run K realSizing n (es.map Op.add) = .ok g) :
    (es.toFinset.card ≤ 1 → g.iface.triangles = .ok 0 ∧ g.iface.clustering F = .ok none) ∧
    (2 ≤ es.toFinset.card → ∃ q : F, g.iface.clustering F = .ok (some q) ∧ 0 ≤ q ∧ q ≤ 1 ∧
      q * q * ((es.toFinset.card : F) - 1) ≤ 1 ∧ (3 ≤ es.toFinset.card → q < 1) ∧
      q * ((es.toFinset.card : F) * ((es.toFinset.card : F) - 1)) =
        ((countTriples n (HeavyTriple n es.toFinset.card (fun e => e ∈ es)) % 2 ^ 32 : Nat) : F)) := by
  obtain ⟨g', h1, h3, hf⟩ := built hK hF h2 hn hes
  rw [hr] at h1; cases h1
  have hm : g.iface.nEdges = es.toFinset.card := by
    obtain ⟨l, l1, l2, l3⟩ := hf.nEdges
    rw [← l1, ← List.toFinset_card_of_nodup l2]
    congr 1
    ext e
    rw [List.mem_toFinset, l3, List.mem_toFinset]
  have := clustering_bounds (F := F) hf
  rwa [hm, h3] at this

/-- C96 is false: on the complete graph with three vertices every path of two edges is closed, but no graph with three or
more edges has a result of 1. -/
theorem C96_refuted (hK : K.Lawful) (hF : K.ForcedPure) : ¬ C96_Full F K := by
  intro hfull
  obtain ⟨es, hes⟩ : ∃ es : List Edge, es = [(0, 1), (1, 0), (0, 2), (2, 0), (1, 2), (2, 1)] := ⟨_, rfl⟩
  have hr : ∀ e ∈ es, InRange 3 e := by rw [hes]; decide
  obtain ⟨g, h1, _, _⟩ := built hK hF (n := 3) (by norm_num) (by norm_num) hr
  have hall : ∀ a b, a < 3 → b < 3 → a ≠ b → (a, b) ∈ es := by
    rw [hes]
    intro a b ha hb hab
    have h3 : a = 0 ∨ a = 1 ∨ a = 2 := by omega
    have h4 : b = 0 ∨ b = 1 ∨ b = 2 := by omega
    rcases h3 with rfl | rfl | rfl <;> rcases h4 with rfl | rfl | rfl <;>
      first | exact absurd rfl hab | decide
  have hlt : ∀ a b, (a, b) ∈ es → a < 3 ∧ b < 3 := fun a b h => hr _ h
  have heq : Closed2 (fun e => e ∈ es) = Path2 (fun e => e ∈ es) := by
    funext a b c
    apply propext
    constructor
    · exact fun h => h.1
    · intro h
      obtain ⟨_, _, hac, hab, hbc⟩ := id h
      exact ⟨h, hall a c (hlt _ _ hab).1 (hlt _ _ hbc).2 hac⟩
  have hpos : 0 < countTriples 3 (Path2 (fun e => e ∈ es)) := by
    classical
    unfold countTriples
    rw [Finset.card_pos]
    refine ⟨(0, 1, 2), Finset.mem_filter.2 ⟨by decide, by decide, by decide, by decide, ?_, ?_⟩⟩
    · exact hall 0 1 (by decide) (by decide) (by decide)
    · exact hall 1 2 (by decide) (by decide) (by decide)
  have h2 := hfull 3 es g (by norm_num) (by norm_num) hr h1 hpos
  rw [heq, div_self (Nat.cast_ne_zero.2 (by omega))] at h2
  have hcard : es.toFinset.card = 6 := by rw [hes]; decide
  obtain ⟨q, q1, _, _, _, q2, _⟩ := (C96_range_partial (F := F) hK hF (by norm_num) (by norm_num) hr h1).2 (by omega)
  rw [h2] at q1
  have := q2 (by omega)
  cases Option.some.inj (Res.ok.inj q1)
  exact lt_irrefl _ this

end

/-- Instance: a graph on which the code returns a positive coefficient, 1/42; and one with a single edge, 0/0. -/
example : (∃ g : DK refK2, run refK2 realSizing 6 ([(0, 1), (0, 2), (2, 1), (1, 3), (1, 4), (1, 5), (2, 3)].map Op.add) = .ok g ∧
      decide (g.iface.clustering ℚ = .ok (some (1 / 42))) = true) ∧
    ∃ g : DK refK2, run refK2 realSizing 6 [.add (0, 1)] = .ok g ∧ decide (g.iface.clustering ℚ = .ok none) = true :=
  ⟨real_check (by decide) (by decide +kernel), real_check (by decide) (by decide +kernel)⟩

end DK2
