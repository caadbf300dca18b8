import Verif.AlgoProofs
import Mathlib.Data.Finset.Card
import Mathlib.Data.Multiset.Basic
import Mathlib.Algebra.BigOperators.Group.List.Basic
import Mathlib.Data.List.Flatten
/-!
# Triangle counting: proofs
-/

namespace DK2
namespace GraphI
variable {G : GraphI}

theorem sumRes_ok {α : Type} {f : α → Res Nat} {g : α → Nat} : ∀ {l : List α}, (∀ a ∈ l, f a = .ok (g a)) →
    sumRes f l = .ok (l.map g).sum := by
  intro l
  induction l with
  | nil => intro _; rfl
  | cons a l ih =>
    intro h
    unfold sumRes
    rw [h a (by simp), ih (fun b hb => h b (by simp [hb]))]
    simp

theorem adjNode_ok {L : Nat → List Nat} : ∀ {ns : List Nat} {m : Nat → List Nat},
    (∀ x ∈ ns, G.listNb x = .ok (L x)) → ns.Nodup → (∀ x ∈ ns, m x = []) →
    ∃ m', G.adjNode ns m = .ok m' ∧ (∀ x ∈ ns, m' x = L x) ∧ (∀ x, x ∉ ns → m' x = m x) := by
  intro ns
  induction ns with
  | nil => intro m _ _ _; exact ⟨m, rfl, by simp, fun _ _ => rfl⟩
  | cons a ns ih =>
    intro m h hn hm
    rw [List.nodup_cons] at hn
    unfold adjNode
    rw [h a (by simp)]
    simp only [Res.ok_bind]
    have hm' : ∀ x, x ≠ a → (if (L a).length = 0 then m else upd m a (L a)) x = m x := by
      intro x hx
      split
      · rfl
      · simp [upd, hx]
    have ha : (if (L a).length = 0 then m else upd m a (L a)) a = L a := by
      split
      · rename_i h0
        rw [hm a (by simp), List.length_eq_zero_iff.1 h0]
      · simp
    obtain ⟨m', i1, i2, i3⟩ := ih (m := if (L a).length = 0 then m else upd m a (L a))
      (fun x hx => h x (by simp [hx])) hn.2
      (fun x hx => by rw [hm' x (fun hh => hn.1 (hh ▸ hx))]; exact hm x (by simp [hx]))
    refine ⟨m', i1, ?_, ?_⟩
    · intro x hx
      rcases List.mem_cons.1 hx with rfl | hx
      · rw [i3 _ hn.1, ha]
      · exact i2 x hx
    · intro x hx
      have h1 : x ≠ a := fun hh => hx (by simp [hh])
      have h2 : x ∉ ns := fun hh => hx (by simp [hh])
      rw [i3 x h2, hm' x h1]

/-- A double sum over edges and vertices counts triples. -/
theorem sum_card {es : List Edge} {F : Edge → List Nat} (hes : es.Nodup) (hF : ∀ e ∈ es, (F e).Nodup)
    {P : Finset (Nat × Nat × Nat)} (hP : ∀ a b u, (a, b, u) ∈ P ↔ (a, b) ∈ es ∧ u ∈ F (a, b)) :
    (es.map (fun e => (F e).length)).sum = P.card := by
  have hT : ((es.flatMap (fun e => (F e).map (fun u => (e.1, e.2, u)))).toFinset) = P := by
    ext ⟨a, b, u⟩
    rw [List.mem_toFinset, hP, List.mem_flatMap]
    constructor
    · rintro ⟨⟨a', b'⟩, h1, h2⟩
      obtain ⟨u', h3, h4⟩ := List.mem_map.1 h2
      simp only [Prod.mk.injEq] at h4
      obtain ⟨rfl, rfl, rfl⟩ := h4
      exact ⟨h1, h3⟩
    · rintro ⟨h1, h2⟩
      exact ⟨(a, b), h1, List.mem_map.2 ⟨u, h2, rfl⟩⟩
  have hnd : (es.flatMap (fun e => (F e).map (fun u => (e.1, e.2, u)))).Nodup := by
    rw [List.nodup_flatMap]
    refine ⟨fun e he => (hF e he).map (fun a b h => by simpa using h), ?_⟩
    refine hes.imp_of_mem ?_
    intro a b _ _ hab
    rw [Function.onFun, List.disjoint_left]
    intro t ht1 ht2
    obtain ⟨u, _, h1⟩ := List.mem_map.1 ht1
    obtain ⟨v, _, h2⟩ := List.mem_map.1 ht2
    rw [← h2] at h1
    simp only [Prod.mk.injEq] at h1
    exact hab (Prod.ext h1.1 h1.2.1)
  rw [← hT, List.toFinset_card_of_nodup hnd, List.length_flatMap]
  simp

/-- What the algorithms need from a graph with edge set `E`. -/
structure Faithful (G : GraphI) (E : Edge → Prop) : Prop where
  range : ∀ e, E e → InRange G.nodes e
  edges : ∃ es, G.edges = .ok es ∧ es.Nodup ∧ ∀ e, e ∈ es ↔ E e
  listNb : ∀ x, x < G.nodes → ∃ l, G.listNb x = .ok l ∧ l.Nodup ∧ ∀ y, y ∈ l ↔ E (x, y)
  nb : ∀ x, x < G.nodes → ∃ l, G.nb x = .ok l ∧ l.Nodup ∧ ∀ y, y ∈ l ↔ E (x, y)
  nodeSeq : G.nodeSeq = .ok (List.range G.nodes)
  contains : ∀ e, InRange G.nodes e → ∃ b, G.contains e = .ok b ∧ (b = true ↔ E e)
  nEdges : ∃ es : List Edge, es.length = G.nEdges ∧ es.Nodup ∧ ∀ e, e ∈ es ↔ E e

theorem Faithful.adj {E : Edge → Prop} (h : G.Faithful E) :
    ∃ adj : Nat → List Nat, G.adjNode (List.range G.nodes) (fun _ => []) = .ok adj ∧
      (∀ x, (adj x).Nodup) ∧ ∀ x y, y ∈ adj x ↔ E (x, y) := by
  choose! L hL using h.listNb
  obtain ⟨m, h1, h2, h3⟩ := adjNode_ok (G := G) (L := L) (ns := List.range G.nodes) (m := fun _ => [])
    (fun x hx => (hL x (List.mem_range.1 hx)).1) List.nodup_range (fun _ _ => rfl)
  refine ⟨m, h1, ?_, ?_⟩
  · intro x
    by_cases hx : x < G.nodes
    · rw [h2 x (List.mem_range.2 hx)]; exact (hL x hx).2.1
    · rw [h3 x (fun hh => hx (List.mem_range.1 hh))]; simp
  · intro x y
    by_cases hx : x < G.nodes
    · rw [h2 x (List.mem_range.2 hx)]; exact (hL x hx).2.2 y
    · rw [h3 x (fun hh => hx (List.mem_range.1 hh))]
      simp only [List.not_mem_nil, false_iff]
      exact fun hh => hx (h.range _ hh).1

/-- `countTriples` as a sum over the edges. -/
theorem count_eq {E : Edge → Prop} (hr : ∀ e, E e → InRange G.nodes e) {es : List Edge} (hes : es.Nodup)
    (hmem : ∀ e, e ∈ es ↔ E e) {F : Edge → List Nat} (hF : ∀ e ∈ es, (F e).Nodup)
    {P : Nat → Nat → Nat → Prop} (hP : ∀ a b u, P a b u ↔ E (a, b) ∧ u ∈ F (a, b))
    (hlt : ∀ a b u, P a b u → u < G.nodes) :
    (es.map (fun e => (F e).length)).sum = countTriples G.nodes P := by
  unfold countTriples
  refine sum_card hes hF ?_
  intro a b u
  simp only [Finset.mem_filter, Finset.mem_product, Finset.mem_range]
  rw [hP, hmem]
  constructor
  · rintro ⟨_, h1, h2⟩; exact ⟨h1, h2⟩
  · rintro ⟨h1, h2⟩
    exact ⟨⟨(hr _ h1).1, (hr _ h1).2, hlt a b u ((hP a b u).2 ⟨h1, h2⟩)⟩, h1, h2⟩

theorem trianglesHash_eq {E : Edge → Prop} (h : G.Faithful E) :
    G.trianglesHash = .ok (toInt (countTriples G.nodes (DirTriangle E))) := by
  classical
  obtain ⟨es, e1, e2, e3⟩ := h.edges
  obtain ⟨adj, a1, a2, a3⟩ := h.adj
  unfold trianglesHash
  rw [e1, h.nodeSeq]
  simp only [Res.ok_bind, a1]
  have hF : ∀ e : Edge, (if e.1 ≠ e.2 then (adj e.2).filter
      (fun u => decide (u ≠ e.1 ∧ u ≠ e.2 ∧ (u, e.1) ∈ es)) else []).Nodup := by
    intro e; split
    · exact (a2 _).filter _
    · simp
  rw [sumRes_ok (g := fun e => (if e.1 ≠ e.2 then (adj e.2).filter
      (fun u => decide (u ≠ e.1 ∧ u ≠ e.2 ∧ (u, e.1) ∈ es)) else []).length)
      (fun e _ => by split <;> rfl)]
  rw [count_eq (G := G) h.range e2 e3 (fun e _ => hF e) (P := DirTriangle E)]
  · rfl
  · intro a b u
    unfold DirTriangle
    by_cases hab : a ≠ b
    · rw [if_pos hab]
      simp only [List.mem_filter, a3, e3, decide_eq_true_eq]
      constructor
      · rintro ⟨_, h2, h3, h4, h5, h6⟩; exact ⟨h4, h5, fun h => h3 h.symm, fun h => h2 h.symm, h6⟩
      · rintro ⟨h4, h5, h3, h2, h6⟩; exact ⟨hab, fun h => h2 h.symm, fun h => h3 h.symm, h4, h5, h6⟩
    · rw [if_neg hab]
      simp only [List.not_mem_nil, and_false, iff_false]
      exact fun hh => hab hh.1
  · intro a b u hh; exact (h.range _ hh.2.2.2.2.1).2

/-- What `count_triangles_dummy` counts: `a ≠ b` is the only inequality it tests. -/
theorem trianglesDummy_eq {E : Edge → Prop} (h : G.Faithful E) :
    G.trianglesDummy = .ok (countTriples G.nodes
      (fun a b c => a ≠ b ∧ E (a, b) ∧ E (b, c) ∧ E (c, a)) % 2 ^ 32) := by
  classical
  obtain ⟨es, e1, e2, e3⟩ := h.edges
  choose! L hL using h.nb
  unfold trianglesDummy
  rw [e1]
  simp only [Res.ok_bind]
  have hF : ∀ e : Edge, e ∈ es → (if e.1 ≠ e.2 then (L e.2).filter (fun u => decide (E (u, e.1))) else []).Nodup := by
    intro e he; split
    · exact (hL e.2 (h.range _ ((e3 e).1 he)).2).2.1.filter _
    · simp
  rw [sumRes_ok (g := fun e => (if e.1 ≠ e.2 then (L e.2).filter (fun u => decide (E (u, e.1))) else []).length)
      (fun e he => by
        have hr := h.range _ ((e3 e).1 he)
        split
        · rw [(hL e.2 hr.2).1]
          simp only [Res.ok_bind]
          unfold dummyInner
          rw [sumRes_ok (g := fun u => if E (u, e.1) then 1 else 0) (fun u hu => by
            have hu' := ((hL e.2 hr.2).2.2 u).1 hu
            obtain ⟨b, b1, b2⟩ := h.contains (u, e.1) ⟨(h.range _ hu').2, hr.1⟩
            rw [b1]
            simp only [Res.ok_bind]
            congr 1
            by_cases hb : b = true
            · rw [if_pos hb, if_pos (b2.1 hb)]
            · rw [if_neg hb, if_neg (fun hh => hb (b2.2 hh))])]
          congr 1
          induction L e.2 with
          | nil => rfl
          | cons a l ih =>
            rw [List.map_cons, List.sum_cons, ih]
            by_cases ha : E (a, e.1)
            · simp [ha]; omega
            · simp [ha]
        · rfl)]
  rw [count_eq (G := G) h.range e2 e3 hF (P := fun a b c => a ≠ b ∧ E (a, b) ∧ E (b, c) ∧ E (c, a))]
  · rfl
  · intro a b u
    by_cases hab : a ≠ b
    · rw [if_pos hab]
      simp only [List.mem_filter, decide_eq_true_eq]
      constructor
      · rintro ⟨_, h4, h5, h6⟩
        exact ⟨h4, ((hL b (h.range _ h4).2).2.2 u).2 h5, h6⟩
      · rintro ⟨h4, h5, h6⟩
        exact ⟨hab, h4, ((hL b (h.range _ h4).2).2.2 u).1 h5, h6⟩
    · rw [if_neg hab]
      simp only [List.not_mem_nil, and_false, iff_false]
      exact fun hh => hab hh.1
  · intro a b u hh; exact (h.range _ hh.2.2.1).2

theorem triangles_eq {E : Edge → Prop} (h : G.Faithful E) :
    G.triangles = .ok (countTriples G.nodes (HeavyTriple G.nodes G.nEdges E) % 2 ^ 32) := by
  classical
  obtain ⟨es, e1, e2, e3⟩ := h.edges
  obtain ⟨adj, a1, a2, a3⟩ := h.adj
  have hdeg : ∀ v, (adj v).length = outDeg G.nodes E v := by
    intro v
    unfold outDeg
    rw [← List.toFinset_card_of_nodup (a2 v)]
    congr 1
    ext y
    simp only [List.mem_toFinset, Finset.mem_filter, Finset.mem_range, a3]
    exact ⟨fun hh => ⟨(h.range _ hh).2, hh⟩, fun hh => hh.2⟩
  unfold triangles
  rw [e1, h.nodeSeq]
  simp only [Res.ok_bind, a1, List.dedup_eq_self.2 e2]
  have hcond : ∀ e : Edge, (¬ G.heavy (adj e.1).length = true ∧ G.heavy (adj e.2).length = true ∧
      minor e.1 (adj e.1).length e.2 (adj e.2).length = true) ↔
      (outDeg G.nodes E e.1 * outDeg G.nodes E e.1 < G.nEdges ∧
        G.nEdges ≤ outDeg G.nodes E e.2 * outDeg G.nodes E e.2) := by
    intro e
    simp only [heavy, minor, hdeg, decide_eq_true_eq, not_le]
    constructor
    · rintro ⟨h1, h2, _⟩; exact ⟨h1, h2⟩
    · rintro ⟨h1, h2⟩
      refine ⟨h1, h2, Or.inl ?_⟩
      by_contra hc
      have := Nat.mul_le_mul (not_lt.1 hc) (not_lt.1 hc)
      omega
  have hF : ∀ e : Edge, (if ¬ G.heavy (adj e.1).length = true ∧ G.heavy (adj e.2).length = true ∧
      minor e.1 (adj e.1).length e.2 (adj e.2).length = true then (adj e.1).filter
      (fun u => decide ((u, e.2) ∈ es ∧ minor e.1 (adj e.1).length u (adj u).length = true)) else []).Nodup := by
    intro e; split
    · exact (a2 _).filter _
    · simp
  rw [sumRes_ok (g := fun e => (if ¬ G.heavy (adj e.1).length = true ∧ G.heavy (adj e.2).length = true ∧
      minor e.1 (adj e.1).length e.2 (adj e.2).length = true then (adj e.1).filter
      (fun u => decide ((u, e.2) ∈ es ∧ minor e.1 (adj e.1).length u (adj u).length = true)) else []).length)
      (fun e _ => by
        by_cases h1 : G.heavy (adj e.1).length = true ∧ G.heavy (adj e.2).length = true
        · rw [if_pos h1, if_neg (fun hh => hh.1 h1.1)]; rfl
        · rw [if_neg h1]
          split <;> rfl)]
  rw [count_eq (G := G) h.range e2 e3 (fun e _ => hF e) (P := HeavyTriple G.nodes G.nEdges E)]
  · rfl
  · intro a b u
    unfold HeavyTriple
    by_cases hab : outDeg G.nodes E a * outDeg G.nodes E a < G.nEdges ∧
        G.nEdges ≤ outDeg G.nodes E b * outDeg G.nodes E b
    · rw [if_pos ((hcond (a, b)).2 hab)]
      simp only [List.mem_filter, a3, e3, decide_eq_true_eq, minor, hdeg]
      tauto
    · rw [if_neg (fun hh => hab ((hcond (a, b)).1 hh))]
      simp only [List.not_mem_nil, and_false, iff_false]
      exact fun hh => hab ⟨hh.2.2.2.1, hh.2.2.2.2.1⟩
  · intro a b u hh; exact (h.range _ hh.2.1).2

end GraphI
end DK2
