import Verif.BitK2
import Verif.PropsGraph
import Verif.PropsGraph2
/-!
# C66 The graph over bit-encoded trees

The theorems about `DKtree` assume a contract of the external `k2_tree`.  Here the trees are the bit vectors `T` and `L`
that `union_support.hpp` reads, searched by rank; deletion clears one bit of `L`.
-/

namespace DK2
open DK

/-- The height of a tree over `n` vertices: the least `h ≥ 1` with `n ≤ k^h`. -/
def htOf (k n : Nat) : Nat := max 1 (Nat.clog k n)

theorem htOf_tall {k : Nat} (hk : 2 ≤ k) : MT.Tall k (htOf k) := by
  refine ⟨by omega, fun n => ⟨le_max_left _ _, ?_⟩⟩
  calc n ≤ k ^ Nat.clog k n := Nat.le_pow_clog (by omega) n
    _ ≤ k ^ htOf k n := Nat.pow_le_pow_right (by omega) (le_max_right _ _)

/-- C66: bit-encoded trees of any arity `k ≥ 2` meet the whole contract assumed of `k2_tree`. -/
theorem C66_contract {k : Nat} (hk : 2 ≤ k) : (bitK2 k (htOf k)).Lawful ∧ (bitK2 k (htOf k)).ForcedPure :=
  ⟨bitK2_lawful (htOf_tall hk), bitK2_pure k _⟩

/-- C66: inserting any sequence of edges into a graph over bit-encoded trees returns; `contains` is then membership and
`get_number_edges` the number of distinct edges. -/
theorem C66_insert {k : Nat} (hk : 2 ≤ k) {n : Nat} (hn : 2 ≤ n) {es : List Edge} (hes : ∀ e ∈ es, InRange n e) :
    ∃ g : DK (bitK2 k (htOf k)), run (bitK2 k (htOf k)) realSizing n (es.map Op.add) = .ok g ∧
      (∀ e, InRange n e → g.contains e = .ok (decide (e ∈ es))) ∧ g.numberEdges = es.dedup.length :=
  C02_insert_only (C66_contract hk).1 (C66_contract hk).2 hn hes

/-- C66: after any history of insertions and deletions, `contains` answers the history, except for `(1,1)` (C01). -/
theorem C66_history {k : Nat} (hk : 2 ≤ k) {n : Nat} {ops : List Op} {g : DK (bitK2 k (htOf k))} (ho : OpsInRange n ops)
    (hr : run (bitK2 k (htOf k)) realSizing n ops = .ok g) {e : Edge} (he : InRange n e) (hne : e ≠ (1, 1)) :
    (∃ b, g.contains e = .ok b) ∧ (g.contains e = .ok true ↔ specMem ops e) :=
  C01_contains_partial (C66_contract hk).1 (C66_contract hk).2 realSizing ho hr he hne

/-- C66: the bits themselves.  The tree built from edges answers membership; erasing a present edge keeps `T` and every
bit of `L` but one, and from then on the tree answers as before except on that edge. -/
theorem C66_bits {k : Nat} (hk : 2 ≤ k) {n : Nat} {es : List Edge} (hes : ∀ e ∈ es, InRange n e) {e : Edge} (he : e ∈ es) :
    let t := MT.build k (htOf k) es n
    ∃ i, (t.erase k e).2.bt.T = t.bt.T ∧ (t.erase k e).2.bt.L = t.bt.L.set i false ∧ t.bt.L[i]? = some true ∧
      ∀ e', InRange n e' → (t.adj k e' = decide (e' ∈ es) ∧
        (t.erase k e).2.adj k e' = decide (e' ∈ es ∧ e' ≠ e)) := by
  have hT := htOf_tall hk
  intro t
  have hv : MT.Valid k (htOf k) n t := MT.build_valid hT hes
  have ha : ∀ e', InRange n e' → t.adj k e' = decide (e' ∈ es) := fun e' he' => MT.build_adj hT hes he'
  have hae : t.adj k e = true := by rw [ha e (hes e he)]; simpa using he
  obtain ⟨t', h1, h2, h3⟩ := MT.erase_spec hT hv (hes e he) hae
  have hne : t'.adj k e = false := by
    rw [← Bool.not_eq_true, h3 e (hes e he)]; simp
  have h1' := h1
  unfold MT.erase at h1'
  rw [hae, if_pos rfl] at h1'
  rw [h1]
  cases hl : Bits.leafPos (k * k) t.bt.T (Bits.path k t.bt.h e) 0 with
  | none =>
    rw [hl] at h1'
    have h4 : t' = t := (Prod.mk.inj h1').2.symm
    rw [h4, hae] at hne; cases hne
  | some i =>
    rw [hl] at h1'
    have h4 : t' = _ := (Prod.mk.inj h1').2.symm
    have hL : t'.bt.L = t.bt.L.set i false := by rw [h4]
    have hTT : t'.bt.T = t.bt.T := by rw [h4]
    have hh : t'.bt.h = t.bt.h := by rw [h4]
    refine ⟨i, hTT, hL, ?_, ?_⟩
    · by_contra hcon
      have : t.bt.L.set i false = t.bt.L := by
        apply List.ext_getElem?
        intro j
        rw [List.getElem?_set]
        by_cases hj : i = j
        · subst hj
          rw [if_pos rfl]
          split
          · rename_i hlt
            rw [List.getElem?_eq_getElem hlt] at hcon ⊢
            cases hb : t.bt.L[i] with
            | true => rw [hb] at hcon; exact absurd rfl hcon
            | false => rfl
          · rename_i hlt
            exact (List.getElem?_eq_none (by omega)).symm
        · rw [if_neg hj]
      have h5 : t'.adj k e = t.adj k e := by
        unfold MT.adj BT.adj
        rw [hTT, hL, this, hh]
      rw [h5, hae] at hne; cases hne
    · intro e' he'
      refine ⟨ha e' he', ?_⟩
      rw [Bool.eq_iff_iff, h3 e' he', ha e' he']
      simp

/-- Instance: a tree of arity 2 over four vertices. -/
example : (MT.build 2 (htOf 2) [(0, 1), (3, 2)] 4).bt.T = [true, false, false, true] ∧
    (MT.build 2 (htOf 2) [(0, 1), (3, 2)] 4).bt.L = [false, true, false, false, false, false, true, false] ∧
    ((MT.build 2 (htOf 2) [(0, 1), (3, 2)] 4).erase 2 (3, 2)).2.bt.L =
      [false, true, false, false, false, false, false, false] := by
  decide +kernel

/-- Instance of the graph: three edges, one twice, arity 2. -/
example : ∃ g : DK (bitK2 2 (htOf 2)),
    run (bitK2 2 (htOf 2)) realSizing 3 (([(0,1),(1,2),(0,1),(2,2)] : List Edge).map Op.add) = .ok g ∧
    g.numberEdges = 3 ∧ g.contains (1, 2) = .ok true ∧ g.contains (2, 1) = .ok false := by
  obtain ⟨g, h1, h2, h3⟩ := C66_insert (k := 2) (by decide) (n := 3) (by decide)
    (es := [(0,1),(1,2),(0,1),(2,2)]) (by decide)
  exact ⟨g, h1, by rw [h3]; decide, by rw [h2 _ (by decide)]; decide, by rw [h2 _ (by decide)]; decide⟩

end DK2
