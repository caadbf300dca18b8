import Verif.MunroIter
/-!
# C67 Iterators and `Algorithm` on `DKtree_delay_munro`
-/

namespace DK2
open DK Bits GraphI

/-! ## One edge listed twice -/

/-- The number of directed triangles through the edge `t`, other than by its endpoints. -/
noncomputable def throughEdge (n : Nat) (E : Edge → Prop) (t : Edge) : Nat := by
  classical exact ((Finset.range n).filter (fun a => DirTriangle E a t.1 t.2)).card

theorem GraphI.trianglesHash_extra {G G' : GraphI} {E : Edge → Prop} (h : G.Faithful E) {t : Edge}
    (hed : G'.edges = G.edges) (hns : G'.nodeSeq = G.nodeSeq) (ht : t.1 = t.2 ∨ E t) (hf : ∀ x, x < G.nodes → ∃ l, G'.listNb x = .ok l ∧
      ∀ y, (E (x, y) → l.count y = 1 + if t = (x, y) then 1 else 0) ∧
        (¬ E (x, y) → l.count y = if t = (x, y) then 1 else 0)) :
    G'.trianglesHash =
      .ok (toInt (countTriples G.nodes (DirTriangle E) + throughEdge G.nodes E t)) := by
  classical
  obtain ⟨es, e1, e2, e3⟩ := h.edges
  obtain ⟨adj, a1, a2, a3⟩ := h.adj
  choose! L hL using hf
  obtain ⟨adj', b1, b2, b3⟩ := adjNode_ok (G := G') (L := L) (ns := List.range G.nodes) (m := fun _ => [])
    (fun x hx => (hL x (List.mem_range.1 hx)).1) List.nodup_range (fun _ _ => rfl)
  have hperm : ∀ x, x < G.nodes → (adj' x).Perm (adj x ++ if t.1 = x then [t.2] else []) := by
    intro x hx
    rw [b2 x (List.mem_range.2 hx), List.perm_iff_count]
    intro y
    obtain ⟨p1, p2⟩ := (hL x hx).2 y
    have ht' : List.count y (if t.1 = x then [t.2] else []) = if t = (x, y) then 1 else 0 := by
      obtain ⟨t1, t2⟩ := t
      by_cases h1 : t1 = x <;> by_cases h2 : t2 = y <;> simp [h1, h2]
    rw [List.count_append, ht', (a2 x).count]
    by_cases hE : E (x, y)
    · rw [p1 hE, if_pos ((a3 x y).2 hE)]
    · rw [p2 hE, if_neg (fun hh => hE ((a3 x y).1 hh)), Nat.zero_add]
  have hH := trianglesHash_eq h
  unfold trianglesHash at hH ⊢
  rw [e1, h.nodeSeq] at hH
  rw [hed, hns, e1, h.nodeSeq]
  simp only [Res.ok_bind, a1, b1] at hH ⊢
  -- the extra term of one edge
  let Q : Edge → Prop := fun e => e.2 = t.1 ∧ e.1 ≠ e.2 ∧ t.2 ≠ e.1 ∧ t.2 ≠ e.2 ∧ E (t.2, e.1)
  let g : Edge → Nat := fun e => if e.1 ≠ e.2 then ((adj e.2).filter
      (fun u => decide (u ≠ e.1 ∧ u ≠ e.2 ∧ (u, e.1) ∈ es))).length else 0
  rw [sumRes_ok (g := g) (fun e _ => by simp only [g]; split <;> rfl)] at hH
  rw [sumRes_ok (g := fun e => g e + if Q e then 1 else 0) (fun e he => by
    have hlt := (h.range _ ((e3 e).1 he)).2
    by_cases hne : e.1 ≠ e.2
    · simp only [g, if_pos hne]
      congr 1
      rw [((hperm e.2 hlt).filter _).length_eq, List.filter_append, List.length_append]
      congr 1
      by_cases h1 : t.1 = e.2
      · rw [if_pos h1]
        by_cases h2 : t.2 ≠ e.1 ∧ t.2 ≠ e.2 ∧ (t.2, e.1) ∈ es
        · have hq : Q e := ⟨h1.symm, hne, h2.1, h2.2.1, (e3 _).1 h2.2.2⟩
          rw [if_pos hq, List.filter_cons, if_pos (by simpa using h2)]; rfl
        · have hq : ¬ Q e := fun q => h2 ⟨q.2.2.1, q.2.2.2.1, (e3 _).2 q.2.2.2.2⟩
          rw [if_neg hq, List.filter_cons, if_neg (by simpa using h2)]; rfl
      · have hq : ¬ Q e := fun q => h1 q.1.symm
        rw [if_neg h1, if_neg hq]; rfl
    · have hq : ¬ Q e := fun q => hne q.2.1
      simp only [g, if_neg hne, if_neg hq])]
  have hsum : ∀ l : List Edge, (l.map (fun e => g e + if Q e then 1 else 0)).sum =
      (l.map g).sum + (l.filter (fun e => decide (Q e))).length := by
    intro l
    induction l with
    | nil => rfl
    | cons a l ih =>
      simp only [List.map_cons, List.sum_cons, ih, List.filter_cons]
      by_cases hq : Q a
      · simp [hq]; omega
      · simp [hq]; omega
  simp only [Res.ok_bind] at hH ⊢
  rw [hsum]
  have hc : (es.map g).sum = countTriples G.nodes (DirTriangle E) := by
    have hF : ∀ e : Edge, (if e.1 ≠ e.2 then (adj e.2).filter
        (fun u => decide (u ≠ e.1 ∧ u ≠ e.2 ∧ (u, e.1) ∈ es)) else []).Nodup := by
      intro e; split
      · exact (a2 _).filter _
      · simp
    rw [← count_eq (G := G) h.range e2 e3 (fun e _ => hF e) (P := DirTriangle E)]
    · congr 1
      apply List.map_congr_left
      intro e _
      simp only [g]
      split <;> rfl
    · intro a b u
      unfold DirTriangle
      by_cases hab : a ≠ b
      · rw [if_pos hab]
        simp only [List.mem_filter, a3, e3, decide_eq_true_eq]
        constructor
        · rintro ⟨_, h2, h3, h4, h5, h6⟩; exact ⟨h4, h5, fun h => h3 h.symm, fun h => h2 h.symm, h6⟩
        · rintro ⟨h4, h5, h3, h2, h6⟩; exact ⟨hab, fun h => h2 h.symm, fun h => h3 h.symm, h4, h5, h6⟩
      · rw [if_neg hab]
        simp only [List.not_mem_nil, and_false, iff_false]
        exact fun hh => hab hh.1
    · intro a b u hh; exact (h.range _ hh.2.2.2.2.1).2
  have hx : (es.filter (fun e => decide (Q e))).length = throughEdge G.nodes E t := by
    unfold throughEdge
    have hnd : ((es.filter (fun e => decide (Q e))).map Prod.fst).Nodup := by
      refine (e2.filter _).map_on ?_
      intro a ha b hb hab
      have ha' : Q a := by simpa using (List.mem_filter.1 ha).2
      have hb' : Q b := by simpa using (List.mem_filter.1 hb).2
      exact Prod.ext hab (by rw [ha'.1, hb'.1])
    rw [← List.length_map (f := Prod.fst), ← List.toFinset_card_of_nodup hnd]
    congr 1
    ext a
    rw [List.mem_toFinset, List.mem_map, Finset.mem_filter, Finset.mem_range]
    constructor
    · rintro ⟨⟨a', b⟩, hm, rfl⟩
      obtain ⟨h1, h2⟩ := List.mem_filter.1 hm
      have hq : Q (a', b) := by simpa using h2
      obtain ⟨q1, q2, q3, q4, q5⟩ := hq
      simp only at q1 q2 q3 q4 q5
      subst q1
      have hE1 := (e3 _).1 h1
      refine ⟨(h.range _ hE1).1, q2, fun hh => q4 hh.symm, fun hh => q3 hh.symm, hE1, ?_, q5⟩
      rcases ht with ht | ht
      · exact absurd ht.symm q4
      · exact ht
    · rintro ⟨_, q1, q2, q3, q4, q5, q6⟩
      refine ⟨(a, t.1), List.mem_filter.2 ⟨(e3 _).2 q4, ?_⟩, rfl⟩
      simp only [Q, decide_eq_true_eq]
      exact ⟨trivial, q1, fun hh => q3 hh.symm, fun hh => q2 hh.symm, q6⟩
  rw [hc, hx]

namespace DKM

/-- The edges in the levels the iterators see, up to order. -/
theorem flat_perm {P : MPar} (hT : MT.Tall P.k P.H) {n : Nat} : ∀ {es : List (Option (List Edge))},
    (∀ E, some E ∈ es → ∀ e ∈ E, InRange n e) →
    (flat (bitK2 P.k P.H) ((US.stored P.k (P.H n) n es).map (Option.map (fun t => (⟨t, 0⟩ : MT))))).Perm (lvEdges es) := by
  intro es
  induction es with
  | nil => intro _; exact List.Perm.refl _
  | cons o es ih =>
    intro h
    have ih := ih (fun E hE => h E (List.mem_cons_of_mem _ hE))
    cases o with
    | none => exact ih
    | some E =>
      have h1 : lvEdges (some E :: es) = E.dedup ++ lvEdges es := by simp [lvEdges]
      rw [h1]
      refine List.Perm.append ?_ ih
      show (MT.edges P.k (MT.build P.k P.H E n)).Perm E.dedup
      rw [List.perm_ext_iff_of_nodup (MT.edges_nodup _) (List.nodup_dedup E)]
      intro e
      rw [MT.mem_build hT (h E (by simp)), List.mem_dedup]

theorem real_tall {k : Nat} (nd : Bool) (hk : 2 ≤ k) : MT.Tall (real k nd).k (real k nd).H := htOf_tall hk

/-- Builds and arities in which no edge is ever lost: assertions enabled, or `k ≥ 3`. -/
def Keeps (k n : Nat) (nd : Bool) : Prop := nd = false ∨ (3 ≤ k ∧ 3 ≤ n)

theorem run_keeps {k n N : Nat} {nd : Bool} (hs : Keeps k n nd) (hc : Cond (real k nd) n N) {ops : List Op}
    (hr : OpsInRange n ops) (hN : (added ops).length ≤ N) {d : DKM} (h : run (real k nd) n ops = .ok d) :
    ∃ es p, Track (real k nd) n (added ops) d es p ∧ ∀ x ∈ added ops, held d es p x := by
  rcases hs with hs | ⟨hk, h3⟩
  · obtain ⟨es, p, t⟩ := run_ok realSizing_top hc hr hN h
    exact ⟨es, p, t, t.comp hs⟩
  · have hL : RS ≤ (real k nd).k * (real k nd).k := by
      show 8 ≤ k * k
      have := Nat.mul_le_mul hk hk
      omega
    rcases run_returns_any realSizing_top hc.base (real_near h3) hL (Or.inl (le_refl _)) hr (le_refl _) (hc.mono hN).est with
      ⟨h1, _⟩ | ⟨d', es, p, h1, t, hh, _⟩
    · rw [h1] at h; cases h
    rw [h1] at h; cases h
    exact ⟨es, p, t, hh⟩

/-- With no merge pending the iterators see exactly what was inserted. -/
theorem idle_mem {k n : Nat} {nd : Bool} {G : List Edge} {d : DKM} {es : List (Option (List Edge))}
    (t : Track (real k nd) n G d es none) (hh : ∀ x ∈ G, held d es none x) (e : Edge) :
    (e ∈ d.c0.live ∨ edgesIn (nowLv d es none) e) ↔ e ∈ G := by
  constructor
  · intro h
    refine t.sound e ?_
    rcases h with h | h
    · exact Or.inl h
    · exact Or.inr (Or.inr h)
  · intro h
    rcases hh e h with h1 | h1 | h1
    · exact Or.inl h1
    · cases h1
    · exact Or.inr h1

theorem view_perm {k n : Nat} {nd : Bool} (hk : 2 ≤ k) {d : DKM} {es : List (Option (List Edge))}
    (h : MInv (real k nd) n d es none) : (d.view (real k nd)).edgesOf.Perm (allEdges d es none) := by
  unfold edgesOf allEdges
  refine List.Perm.append_left _ ?_
  have h1 : (d.view (real k nd)).ks = (US.stored (real k nd).k ((real k nd).H n) n es).map
      (Option.map (fun t => (⟨t, 0⟩ : MT))) := by
    show d.ks.map _ = _
    rw [h.st.2]
  rw [h1]
  exact flat_perm (P := real k nd) (real_tall nd hk) (fun E hE => (h.lv.ne E hE).2)

theorem nodes_eq {P : MPar} (d : DKM) : (d.iface P).nodes = d.nv := rfl

theorem nodeSeq_eq {P : MPar} {n : Nat} {d : DKM} {es : List (Option (List Edge))} {p : Option Pd} (h : MInv P n d es p)
    (hn : n < 2 ^ 31) : (d.iface P).nodeSeq = .ok (List.range n) := by
  show ((d.view P).nodeAll ((d.view P).nv + 1) >>= fun m => Res.ok (m.map toEtype)) = _
  have hnn : (d.view P).numberNodes = n := h.nv
  have hnv : (d.view P).nv = n := h.nv
  rw [nodeAll_eq (by rw [hnn]; omega) _ (by rw [hnn, hnv]; omega)]
  simp only [Res.ok_bind]
  rw [hnn, toEtype_map (n := n) (by omega) (fun y hy => List.mem_range.1 hy)]

/-! ## C67 -/

/-- C67: on every reachable graph the loops visit exactly the inserted edges, each once, and the algorithms compute on
exactly those. -/
def C67_Full : Prop :=
  ∀ (k n N : Nat) (nd : Bool) (ops : List Op) (d : DKM), Ctx (real k nd) n N → n ≤ 9999999 → OpsInRange n ops →
    (added ops).length ≤ N → run (real k nd) n ops = .ok d →
    (∃ l, (d.iface (real k nd)).edges = .ok l ∧ l.Nodup ∧ ∀ e, e ∈ l ↔ Op.add e ∈ ops) ∧
    (∀ x, x < n → ∃ l, (d.iface (real k nd)).nb x = .ok l ∧ l.Nodup ∧ ∀ y, y ∈ l ↔ Op.add (x, y) ∈ ops) ∧
    (d.iface (real k nd)).Algorithms n (fun e => Op.add e ∈ ops)

/-- C67 with no merge pending: both loops end and visit exactly the inserted edges, each once if the edge count is right
(C53); `bfs` and `dfs` visit exactly the reachable vertices (`bfs` by distance); `pageRank` returns, and keeps total mass 1 when every
vertex has a successor.  Missing: triangle counting (`C67_triangles_partial`) and pending merges. -/
theorem C67_idle_partial {k n N : Nat} {nd : Bool} (hs : Keeps k n nd) (hc : Cond (real k nd) n N) (hn : n ≤ 9999999)
    {ops : List Op} (hr : OpsInRange n ops) (hN : (added ops).length ≤ N) {d : DKM} (h : run (real k nd) n ops = .ok d)
    (hf : d.us.finish = true) :
    (∃ l, (d.iface (real k nd)).edges = .ok l ∧ (∀ e, e ∈ l ↔ Op.add e ∈ ops) ∧
      (d.numberEdges = (added ops).dedup.length → l.Nodup)) ∧
    (∀ x, x < n → ∃ l, (d.iface (real k nd)).nb x = .ok l ∧ (∀ y, y ∈ l ↔ Op.add (x, y) ∈ ops) ∧
      (d.numberEdges = (added ops).dedup.length → l.Nodup)) ∧
    (∀ root, root < n → ∀ fuel, n < fuel → ∃ p, (d.iface (real k nd)).bfs fuel root = .ok p ∧ p.Nodup ∧
      p.head? = some root ∧ (∀ v, v ∈ p ↔ Reach (fun e => Op.add e ∈ ops) root v) ∧
      p.Pairwise (NotFarther (fun e => Op.add e ∈ ops) root)) ∧
    (∀ root, root < n → ∀ fuel, n < fuel → ∃ p, (d.iface (real k nd)).dfs fuel root = .ok p ∧ p.Nodup ∧
      p.head? = some root ∧ ∀ v, v ∈ p ↔ Reach (fun e => Op.add e ∈ ops) root v) ∧
    (∀ (F : Type) [Field F] [LinearOrder F] [IsStrictOrderedRing F] (conv alpha : F) (j : Nat),
      (∃ e, Op.add e ∈ ops) → ∃ p, (d.iface (real k nd)).pageRank conv j alpha = .ok p ∧ p.length = n ∧ (0 ≤ alpha → alpha ≤ 1 → ∀ x ∈ p, 0 ≤ x) ∧
        ((∀ x, x < n → ∃ y, Op.add (x, y) ∈ ops) → p.sum = 1 ∨ |p.sum - 1| < n * conv)) := by
  classical
  obtain ⟨es, p, t, hh⟩ := run_keeps hs hc hr hN h
  have hp := t.inv.finish_iff.1 hf
  subst hp
  have htwo := hc.base.two
  have hk : 2 ≤ k := hc.base.hk
  have hT := real_tall nd hk
  have hmem : ∀ e, e ∈ (d.view (real k nd)).edgesOf ↔ Op.add e ∈ ops := by
    intro e
    rw [(t.inv.edgeLoop hT (by omega) hn).2.2, idle_mem t hh, mem_added]
  have hnod : d.numberEdges = (added ops).dedup.length → (d.view (real k nd)).edgesOf.Nodup :=
    fun hcnt => (view_perm hk t.inv).nodup_iff.2 (t.nodup hh hcnt)
  have hnb := fun x (hx : x < n) => t.inv.neighLoop hT (by omega) hx
  choose! L hL using hnb
  let N : Nat → List Nat := fun x => if x < n then L x else []
  have hE : (fun x y => y ∈ N x) = (fun x y => Op.add (x, y) ∈ ops) := by
    funext x y
    apply propext
    show y ∈ (if x < n then L x else []) ↔ _
    by_cases hx : x < n
    · rw [if_pos hx, (hL x hx).2.2.2.1, hmem]
    · rw [if_neg hx]
      exact ⟨fun hh => absurd hh (by simp), fun hh => absurd (hr _ hh).1 hx⟩
  have hN1 : ∀ x, x < n → (d.iface (real k nd)).nb x = .ok (N x) := by
    intro x hx
    show _ = Res.ok (if x < n then L x else [])
    rw [if_pos hx]; exact (hL x hx).2.1
  have hNr : ∀ x, x < n → ∀ y ∈ N x, y < n := by
    intro x hx y hy
    have : Op.add (x, y) ∈ ops := by
      have h1 := congrFun (congrFun hE x) y
      rw [← h1]; exact hy
    exact (hr _ this).2
  refine ⟨⟨_, (t.inv.edgeLoop hT (by omega) hn).2.1, hmem, hnod⟩, ?_, ?_, ?_, ?_⟩
  · intro x hx
    exact ⟨L x, (hL x hx).2.1, fun y => by rw [(hL x hx).2.2.2.1, hmem], fun hcnt => (hL x hx).2.2.2.2 (hnod hcnt)⟩
  · intro root hroot f hf
    obtain ⟨p, h1, h2, h3, h4, h5⟩ := bfs_spec hN1 hNr hroot hf
    rw [hE] at h4 h5
    exact ⟨p, h1, h2, h3, h4, h5⟩
  · intro root hroot f hf
    obtain ⟨p, h1, h2, h3, h4⟩ := dfs_spec hN1 hNr hroot hf
    rw [hE] at h4
    exact ⟨p, h1, h2, h3, h4⟩
  · intro F _ _ _ conv alpha j _
    have hln := fun x (hx : x < n) => t.inv.listNeighbour hc.base hx
    choose! M hM using hln
    have hnodes : (d.iface (real k nd)).nodes = n := t.inv.nv
    have hmemM : ∀ x, x < n → ∀ y, Op.add (x, y) ∈ ops → y ∈ M x := by
      intro x hx y hy
      rw [← List.count_pos_iff, (hM x hx).2]
      rcases hh _ (mem_added.2 hy) with h1 | h1 | h1
      · have := List.count_pos_iff.2 h1; omega
      · cases h1
      · have := List.count_pos_iff.2 (mem_lvEdges.2 h1); omega
    have hltM : ∀ x, x < n → ∀ y ∈ M x, y < n := by
      intro x hx y hy
      obtain ⟨l, a1, a2⟩ := C52_sound_partial realSizing_top hc hr hN h hx
      rw [(hM x hx).1] at a1; cases a1
      rcases a2 y hy with h1 | h1
      · exact (hr _ h1).2
      · cases h1; omega
    obtain ⟨p, p1, p2, p3, p4⟩ := pageRank_ok (G := d.iface (real k nd)) (L := M) (by rw [hnodes]; omega)
      (fun x hx => (hM x (hnodes ▸ hx)).1) (fun x hx y hy => by rw [hnodes]; exact hltM x (hnodes ▸ hx) y hy) conv alpha j
    rw [hnodes] at p2 p3
    refine ⟨p, p1, p2, p4, fun hall => ?_⟩
    have hTn : ((List.range n).filter (fun x => !(M x).isEmpty)).length = n := by
      have : (List.range n).filter (fun x => !(M x).isEmpty) = List.range n := by
        rw [List.filter_eq_self]
        intro x hx
        have hx := List.mem_range.1 hx
        obtain ⟨y, hy⟩ := hall x hx
        have := hmemM x hx y hy
        cases hl : M x with
        | nil => rw [hl] at this; cases this
        | cons _ _ => rfl
      rw [this]; simp
    rw [hTn] at p3
    have hn' : (n : F) ≠ 0 := Nat.cast_ne_zero.2 (by omega)
    have h1 : (n : F) * (1 / (n : F)) = 1 := by field_simp
    simp only [massAfter, h1, sub_self, mul_zero, add_zero] at p3
    rcases p3 with h | ⟨_, _, h⟩
    · exact Or.inl h
    · exact Or.inr h

/-- C67, triangle counting with no merge pending and a right edge count: `count_triangles_dummy` is right;
`count_triangles_dummy_hash` counts the triangles through the edge that triggered the last merge once too often. -/
theorem C67_triangles_partial {k n N : Nat} {nd : Bool} (hs : Keeps k n nd) (hc : Cond (real k nd) n N) (hn : n ≤ 9999999)
    {ops : List Op} (hr : OpsInRange n ops) (hN : (added ops).length ≤ N) {d : DKM} (h : run (real k nd) n ops = .ok d)
    (hf : d.us.finish = true) (hcnt : d.numberEdges = (added ops).dedup.length) :
    (d.tmpEdge = (0, 0) ∨ Op.add d.tmpEdge ∈ ops) ∧
    (d.iface (real k nd)).trianglesDummy = .ok (countTriples n (fun a b c => a ≠ b ∧ Op.add (a, b) ∈ ops ∧
      Op.add (b, c) ∈ ops ∧ Op.add (c, a) ∈ ops) % 2 ^ 32) ∧
    (d.iface (real k nd)).trianglesHash = .ok (toInt (countTriples n (DirTriangle (fun e => Op.add e ∈ ops)) +
      throughEdge n (fun e => Op.add e ∈ ops) d.tmpEdge)) := by
  classical
  obtain ⟨es, p, t, hh⟩ := run_keeps hs hc hr hN h
  have hp := t.inv.finish_iff.1 hf
  subst hp
  have htwo := hc.base.two
  have hk : 2 ≤ k := hc.base.hk
  have hT := real_tall nd hk
  obtain ⟨_, hed, hmem⟩ := t.inv.edgeLoop hT (by omega) hn
  have hmem : ∀ e, e ∈ (d.view (real k nd)).edgesOf ↔ Op.add e ∈ ops := by
    intro e
    rw [hmem, idle_mem t hh, mem_added]
  have hnod : (d.view (real k nd)).edgesOf.Nodup := (view_perm hk t.inv).nodup_iff.2 (t.nodup hh hcnt)
  have hnodes : (d.iface (real k nd)).nodes = n := t.inv.nv
  have hcont : ∀ e, InRange n e → ∃ b, d.contains (real k nd) e = .ok b ∧ (b = true ↔ Op.add e ∈ ops) := by
    intro e he
    obtain ⟨b, h1, h2⟩ := t.inv.contains hc.base he
    refine ⟨b, h1, ?_⟩
    rw [h2, ← mem_added, ← idle_mem t hh]
    unfold seen
    simp [nowLv]
  -- the interface with the loops in place of `list_neighbour`
  have hfa : GraphI.Faithful { d.iface (real k nd) with listNb := (d.iface (real k nd)).nb } (fun e => Op.add e ∈ ops) := by
    have hnb : ∀ x, x < n → ∃ l, (d.iface (real k nd)).nb x = .ok l ∧ l.Nodup ∧ ∀ y, y ∈ l ↔ Op.add (x, y) ∈ ops := by
      intro x hx
      obtain ⟨l, _, a1, _, a2, a3⟩ := t.inv.neighLoop hT (by omega) hx
      exact ⟨l, a1, a3 hnod, fun y => by rw [a2, hmem]⟩
    refine ⟨?_, ⟨_, hed, hnod, hmem⟩, ?_, ?_, ?_, ?_, ⟨_, ?_, hnod, hmem⟩⟩
    · intro e he
      show InRange (d.iface (real k nd)).nodes e
      rw [hnodes]; exact hr _ he
    · intro x hx; exact hnb x (hnodes ▸ hx)
    · intro x hx; exact hnb x (hnodes ▸ hx)
    · show (d.iface (real k nd)).nodeSeq = .ok (List.range (d.iface (real k nd)).nodes)
      rw [hnodes]; exact nodeSeq_eq t.inv (by omega)
    · intro e he; exact hcont e (hnodes ▸ he)
    · show _ = d.nTotal
      have h1 : d.nTotal = (added ops).dedup.length := hcnt
      rw [h1]
      refine length_eq_of_mem_iff hnod (List.nodup_dedup _) ?_
      intro e
      rw [hmem, List.mem_dedup, mem_added]
  have htmp : d.tmpEdge = (0, 0) ∨ Op.add d.tmpEdge ∈ ops := by
    rcases t.tmp with h1 | h1
    · exact Or.inl h1
    · exact Or.inr (mem_added.1 h1)
  refine ⟨htmp, ?_, ?_⟩
  · have := trianglesDummy_eq hfa
    rw [← hnodes]
    exact this
  · have := GraphI.trianglesHash_extra (G' := d.iface (real k nd)) hfa (t := d.tmpEdge) rfl rfl (by
      rcases htmp with h1 | h1
      · left; rw [h1]
      · right; exact h1) (by
      intro x hx
      have hx : x < n := hnodes ▸ hx
      obtain ⟨l, h1, h2⟩ := t.inv.listNeighbour hc.base hx
      refine ⟨l, h1, fun y => ?_⟩
      have hall := List.nodup_iff_count_le_one.1 (t.nodup hh hcnt) (x, y)
      have hm : (x, y) ∈ allEdges d es none ↔ Op.add (x, y) ∈ ops := by
        rw [← (view_perm hk t.inv).mem_iff, hmem]
      have hcount : d.c0.live.count (x, y) + (lvEdges es).count (x, y) = (allEdges d es none).count (x, y) := by
        unfold allEdges batch
        rw [List.nil_append, List.count_append]
      rw [h2, hcount]
      simp only [true_and]
      constructor
      · intro hE
        have := List.count_pos_iff.2 (hm.2 hE)
        omega
      · intro hE
        rw [List.count_eq_zero_of_not_mem (fun hh => hE (hm.1 hh)), Nat.zero_add])
    have hn2 : ({ d.iface (real k nd) with listNb := (d.iface (real k nd)).nb } : GraphI).nodes = n := hnodes
    rw [hn2] at this
    exact this

/-- C67 in every reachable state, merge pending or not, both builds, every `k`: the loops end and visit only inserted edges; the
buffer (all edges inserted since the last merge began) is visited completely; the searches end and visit only reachable vertices. -/
theorem C67_sound_partial {k n N : Nat} {nd : Bool} (hc : Cond (real k nd) n N) (hn : n ≤ 9999999)
    {ops : List Op} (hr : OpsInRange n ops) (hN : (added ops).length ≤ N) {d : DKM} (h : run (real k nd) n ops = .ok d) :
    (∃ l, (d.iface (real k nd)).edges = .ok l ∧ (∀ e ∈ l, Op.add e ∈ ops) ∧ ∀ e ∈ d.c0.live, e ∈ l) ∧
    (∀ x, x < n → ∃ l, (d.iface (real k nd)).nb x = .ok l ∧ (∀ y ∈ l, Op.add (x, y) ∈ ops) ∧
      ∀ y, (x, y) ∈ d.c0.live → y ∈ l) ∧
    (∀ root, root < n → ∀ fuel, n < fuel → ∃ p, (d.iface (real k nd)).bfs fuel root = .ok p ∧ p.Nodup ∧
      p.head? = some root ∧ ∀ v ∈ p, Reach (fun e => Op.add e ∈ ops) root v) ∧
    (∀ root, root < n → ∀ fuel, n < fuel → ∃ p, (d.iface (real k nd)).dfs fuel root = .ok p ∧ p.Nodup ∧
      p.head? = some root ∧ ∀ v ∈ p, Reach (fun e => Op.add e ∈ ops) root v) := by
  classical
  obtain ⟨es, p, t⟩ := run_ok realSizing_top hc hr hN h
  have htwo := hc.base.two
  have hT := real_tall nd hc.base.hk
  obtain ⟨_, hed, hmem⟩ := t.inv.edgeLoop hT (by omega) hn
  have hin : ∀ e, e ∈ (d.view (real k nd)).edgesOf → Op.add e ∈ ops := by
    intro e he
    rw [← mem_added]
    refine t.sound e ?_
    rcases (hmem e).1 he with h1 | h1
    · exact Or.inl h1
    · exact Or.inr (Or.inr (now_held t.inv h1))
  have hnb := fun x (hx : x < n) => t.inv.neighLoop hT (by omega) hx
  choose! L hL using hnb
  have hN1 : ∀ x, x < n → (d.iface (real k nd)).nb x = .ok (L x) := fun x hx => (hL x hx).2.1
  have hNr : ∀ x, x < n → ∀ y ∈ L x, y < n := fun x hx => (hL x hx).2.2.1
  have hE : ∀ root, root < n → ∀ v, Relation.ReflTransGen (fun x y => y ∈ L x) root v →
      v < n ∧ Reach (fun e => Op.add e ∈ ops) root v := by
    intro root hroot v hv
    induction hv with
    | refl => exact ⟨hroot, Relation.ReflTransGen.refl⟩
    | tail _ hbc ih =>
      refine ⟨hNr _ ih.1 _ hbc, ih.2.tail ?_⟩
      exact hin _ (((hL _ ih.1).2.2.2.1 _).1 hbc)
  refine ⟨⟨_, hed, hin, fun e he => (hmem e).2 (Or.inl he)⟩, ?_, ?_, ?_⟩
  · intro x hx
    exact ⟨L x, (hL x hx).2.1, fun y hy => hin _ (((hL x hx).2.2.2.1 y).1 hy),
      fun y hy => ((hL x hx).2.2.2.1 y).2 ((hmem _).2 (Or.inl hy))⟩
  · intro root hroot f hf
    obtain ⟨p, h1, h2, h3, h4, _⟩ := bfs_spec hN1 hNr hroot hf
    exact ⟨p, h1, h2, h3, fun v hv => (hE root hroot v ((h4 v).1 hv)).2⟩
  · intro root hroot f hf
    obtain ⟨p, h1, h2, h3, h4⟩ := dfs_spec hN1 hNr hroot hf
    exact ⟨p, h1, h2, h3, fun v hv => (hE root hroot v ((h4 v).1 hv)).2⟩

/-- While the merge started by the 18th insertion is pending, a loop over the neighbours of 126 misses (126,99). -/
theorem C67_refuted : ¬ C67_Full := by
  intro h
  have hc : check (run (P256 true) 256 (inserts w18)) (fun d =>
      decide ((d.iface (P256 true)).nb 126 = .ok [])) = true := by decide +kernel
  rw [← real_eq_256] at hc
  obtain ⟨d, h1, h2⟩ := check_iff.1 hc
  obtain ⟨_, h3, _⟩ := h 2 256 18 true (inserts w18) d
    (real_ctx _ (by norm_num) (by norm_num) (Or.inl (by decide +kernel))) (by norm_num) (by decide) (by decide) h1
  obtain ⟨l, h4, _, h5⟩ := h3 126 (by norm_num)
  rw [of_decide_eq_true h2] at h4
  cases h4
  exact absurd ((h5 99).2 (by decide)) (by simp)

/-- `real 2 nd` with the thresholds by table, for small graphs. -/
noncomputable def PH (nd : Bool) : MPar := ⟨2, fun n => max 1 (Nat.clog 2 n), hybSizing, nd⟩

theorem real_eq_hyb (nd : Bool) : real 2 nd = PH nd := by
  unfold real PH; rw [realSizing_eq_hyb]

/-- On the 3-cycle over 8 vertices, with no merge pending, `count_triangles_dummy_hash` returns 4; the cycle has three rotations. -/
theorem C67_triangles_refuted (nd : Bool) : ∃ d, run (real 2 nd) 8 (inserts [(0, 1), (1, 2), (2, 0)]) = .ok d ∧
    d.us.finish = true ∧ (d.iface (real 2 nd)).trianglesHash = .ok 4 := by
  rw [real_eq_hyb]
  have hc : check (run (PH nd) 8 (inserts [(0, 1), (1, 2), (2, 0)])) (fun d =>
      d.us.finish && decide ((d.iface (PH nd)).trianglesHash = .ok 4)) = true := by
    cases nd <;> decide +kernel
  obtain ⟨d, h1, h2⟩ := check_iff.1 hc
  simp only [Bool.and_eq_true, decide_eq_true_eq] at h2
  exact ⟨d, h1, h2.1, h2.2⟩

/-- Non-vacuity: the hypotheses of `C67_idle_partial` and `C67_triangles_partial` hold after one merge. -/
example : ∃ d, run (real 2 false) 8 (inserts [(0, 1), (1, 2), (2, 0)]) = .ok d ∧ d.us.finish = true ∧
    d.tmpEdge = (1, 2) ∧ d.numberEdges = (added (inserts [(0, 1), (1, 2), (2, 0)])).dedup.length ∧ Keeps 2 8 false ∧
    Ctx (real 2 false) 8 3 ∧ OpsInRange 8 (inserts [(0, 1), (1, 2), (2, 0)]) := by
  have hc : check (run (PH false) 8 (inserts [(0, 1), (1, 2), (2, 0)])) (fun d =>
      d.us.finish && decide (d.tmpEdge = (1, 2)) && decide (d.numberEdges = 3)) = true := by decide +kernel
  rw [← real_eq_hyb] at hc
  obtain ⟨d, h1, h2⟩ := check_iff.1 hc
  simp only [Bool.and_eq_true, decide_eq_true_eq] at h2
  exact ⟨d, h1, h2.1.1, h2.1.2, by rw [h2.2]; decide, Or.inl rfl,
    real_ctx _ (by norm_num) (by norm_num) (Or.inl (by decide +kernel)), by decide⟩

/-- Non-vacuity of `C67_sound_partial` while a merge is pending. -/
example : ∃ d, run (real 2 false) 256 (inserts w18) = .ok d ∧ d.us.finish = false ∧ (d.iface (real 2 false)).nb 126 = .ok [] ∧
    Ctx (real 2 false) 256 18 ∧ OpsInRange 256 (inserts w18) := by
  have hc : check (run (P256 false) 256 (inserts w18)) (fun d =>
      !d.us.finish && decide ((d.iface (P256 false)).nb 126 = .ok [])) = true := by decide +kernel
  rw [← real_eq_256] at hc
  obtain ⟨d, h1, h2⟩ := check_iff.1 hc
  simp only [Bool.and_eq_true, Bool.not_eq_true', decide_eq_true_eq] at h2
  exact ⟨d, h1, h2.1, h2.2, real_ctx _ (by norm_num) (by norm_num) (Or.inl (by decide +kernel)), by decide⟩

end DKM
end DK2
