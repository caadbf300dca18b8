import Verif.PropsAlgo
import Verif.PropsDelay
import Verif.PRConv
/-!
# Iterators and algorithms on `DKtree_delay` (C63)

The iterator classes and `Algorithm` are templates: instantiated with `DKtree_delay` they read its buffer, levels,
`max_r` and counters through the same members as in `DKtree` (DKtree_delay.hpp:293-350), never `tmp`.
-/

namespace DK2
open DK GraphI

variable {K : K2Impl}

/-! ## Any graph whose state represents `E` -/

/-- A state that represents `E` shows `E` through every member function and iterator that `Algorithm` uses. -/
theorem DK.faithful_seen (hK : K.Lawful) {g : DK K} {E : Edge → Prop} (hi : g.Inv) (ha : g.NoneAbove)
    (hne : g.NoEmptyTree) (hm : g.c0.marked = 0) (h0 : g.nv ≠ 0) (hn : g.nv ≤ 9999999)
    (hmem : ∀ e, e ∈ g.edgesOf ↔ E e) : GraphI.Faithful { g.iface with nEdges := g.edgesOf.length } E := by
  have hE : slots g.c0 ++ flat K g.ks = g.edgesOf := by rw [slots_eq_live hi.c0wf hm]; rfl
  have hlt : ∀ {x : Nat} {l : List Nat}, (∀ y, y ∈ l ↔ (x, y) ∈ g.edgesOf) → ∀ y ∈ l, y < g.nv := by
    intro x l h y hy
    exact (hi.range _ ((h y).1 hy)).2
  constructor
  · intro e he
    exact hi.range e ((hmem e).2 he)
  · refine ⟨g.edgesOf, ?_, hi.nodup, hmem⟩
    have hfuel : (slots g.c0 ++ flat K g.ks).length < g.c0.elementsNodes.length +
        (g.ks.map (fun o => (o.map (fun t => (K.edges t).length)).getD 0)).sum + 1 := by
      have h1 : (slots g.c0).length ≤ g.c0.elementsNodes.length := by
        have e1 := hi.c0wf.size_eq; have e2 := hi.c0wf.live_length
        have e3 : g.c0.liveSlots.length ≤ g.c0.nElements := by
          unfold C0.liveSlots
          exact le_trans (List.length_filter_le _ _) (by simp)
        have e4 := hi.c0wf.n_le
        have e5 := hi.c0wf.len_en
        simp only [slots, List.length_map, List.length_range]
        omega
      have h2 : ∀ ks : List (Option K.T), (flat K ks).length =
          (ks.map (fun o => (o.map (fun t => (K.edges t).length)).getD 0)).sum := by
        intro ks
        induction ks with
        | nil => rfl
        | cons o ks ih => cases o <;> simp [ih]
      rw [List.length_append, h2]; omega
    show g.eAll 0 _ = _
    rw [hi.toWInv.eAll_eq h0 hne (by
      rw [hE]
      intro hc
      have := (hi.range _ hc).1
      have h' : maxEdge.1 = 9999999 := rfl
      omega) _ hfuel, hE]
  · intro x hx
    obtain ⟨l, a1, a2, a3⟩ := hi.listNeighbour hK ha (x := x) hx
    exact ⟨l, a1, a2, fun y => by rw [a3, hmem]⟩
  · intro x hx
    obtain ⟨l, a1, a2, a3⟩ := hi.listNeighbour hK ha (x := x) hx
    have hl := hlt a3
    obtain ⟨l', b1, b2⟩ := hi.toWInv.nbAll_eq x
    rw [a1] at b1; cases b1
    refine ⟨l, ?_, a2, fun y => by rw [a3, hmem]⟩
    show (g.listNeighbour x >>= fun l => g.nbAll x (l.length + 1) >>= fun m => Res.ok (m.map toEtype)) = _
    have hs : ∀ y ∈ l, toInt y ≠ -1 := by
      intro y hy
      rw [toInt_of_lt (by have := hl y hy; omega)]
      omega
    rw [a1]
    simp only [Res.ok_bind, b2 hs _ (Nat.lt_succ_self _)]
    rw [toInt_small (n := g.nv) (by omega) hl, toEtype_map (n := g.nv) (by omega) hl]
  · show (g.nodeAll (g.nv + 1) >>= fun m => Res.ok (m.map toEtype)) = _
    have hnn : g.numberNodes = g.nv := rfl
    rw [nodeAll_eq (by rw [hnn]; omega) _ (by rw [hnn]; omega)]
    simp only [Res.ok_bind]
    show Res.ok _ = Res.ok (List.range g.nv)
    rw [hnn, toEtype_map (n := g.nv) (by omega) (fun y hy => List.mem_range.1 hy)]
  · intro e he
    refine ⟨_, hi.contains_eq hK he, ?_⟩
    rw [decide_eq_true_iff, hmem]
  · exact ⟨g.edgesOf, rfl, hi.nodup, hmem⟩

/-- The same with a right counter. -/
theorem DK.faithful_of (hK : K.Lawful) {g : DK K} {E : Edge → Prop} (hi : g.Inv) (ha : g.NoneAbove)
    (hne : g.NoEmptyTree) (hm : g.c0.marked = 0) (h0 : g.nv ≠ 0) (hn : g.nv ≤ 9999999)
    (hmem : ∀ e, e ∈ g.edgesOf ↔ E e) (hcnt : g.nTotal = g.edgesOf.length) : g.iface.Faithful E := by
  have h := DK.faithful_seen hK hi ha hne hm h0 hn hmem
  exact ⟨h.range, h.edges, h.listNb, h.nb, h.nodeSeq, h.contains, ⟨g.edgesOf, hcnt.symm, hi.nodup, hmem⟩⟩

/-- What a user of `Algorithm` expects on a graph with vertices `0..n-1`, `m` edges and edge set `E`. -/
structure GraphI.Algorithms (G : GraphI) (n : Nat) (E : Edge → Prop) : Prop where
  bfs : ∀ root, root < n → ∀ fuel, n < fuel → ∃ p, G.bfs fuel root = .ok p ∧ p.Nodup ∧ p.head? = some root ∧
    (∀ v, v ∈ p ↔ Reach E root v) ∧ p.Pairwise (NotFarther E root)
  dfs : ∀ root, root < n → ∀ fuel, n < fuel → ∃ p, G.dfs fuel root = .ok p ∧ p.Nodup ∧ p.head? = some root ∧
    ∀ v, v ∈ p ↔ Reach E root v
  triangles : G.trianglesHash = .ok (toInt (countTriples n (DirTriangle E)))
  pageRank : ∀ (F : Type) [Field F] [LinearOrder F] [IsStrictOrderedRing F] (conv alpha : F) (k : Nat), (∃ e, E e) →
    ∃ p, G.pageRank conv k alpha = .ok p ∧ p.length = n ∧ (0 ≤ alpha → alpha ≤ 1 → ∀ x ∈ p, 0 ≤ x) ∧
      ((∀ x, x < n → ∃ y, E (x, y)) → p.sum = 1 ∨ |p.sum - 1| < n * conv)
  rank : ∀ (F : Type) [Field F] [LinearOrder F] [IsStrictOrderedRing F] (conv alpha : F) (k : Nat), (∃ e, E e) →
    0 ≤ alpha → alpha < 1 → ∃ p, G.pageRank conv k alpha = .ok p ∧
      PR.Approx n (PR.walkE n E) alpha conv k ((n : F) * (1 / (PR.sources n E : F)) + 1) p

/-- `Algorithm` is right on every graph that shows its edge set consistently. -/
theorem GraphI.Faithful.algorithms {G : GraphI} {E : Edge → Prop} (h : G.Faithful E) : G.Algorithms G.nodes E := by
  classical
  choose! L hL using h.nb
  let N : Nat → List Nat := fun x => if x < G.nodes then L x else []
  have hE : (fun x y => y ∈ N x) = (fun x y => E (x, y)) := by
    funext x y
    apply propext
    show y ∈ (if x < G.nodes then L x else []) ↔ _
    by_cases hx : x < G.nodes
    · rw [if_pos hx]; exact (hL x hx).2.2 y
    · rw [if_neg hx]
      exact ⟨fun hh => absurd hh (by simp), fun hh => absurd (h.range _ hh).1 hx⟩
  have hN : ∀ x, x < G.nodes → G.nb x = .ok (N x) := by
    intro x hx
    show _ = Res.ok (if x < G.nodes then L x else [])
    rw [if_pos hx]; exact (hL x hx).1
  have hNr : ∀ x, x < G.nodes → ∀ y ∈ N x, y < G.nodes := by
    intro x hx y hy
    have : E (x, y) := by rw [← congrFun (congrFun hE x) y]; exact hy
    exact (h.range _ this).2
  constructor
  · intro root hr f hf
    obtain ⟨p, h1, h2, h3, h4, h5⟩ := bfs_spec hN hNr hr hf
    rw [hE] at h4 h5
    exact ⟨p, h1, h2, h3, h4, h5⟩
  · intro root hr f hf
    obtain ⟨p, h1, h2, h3, h4⟩ := dfs_spec hN hNr hr hf
    rw [hE] at h4
    exact ⟨p, h1, h2, h3, h4⟩
  · exact trianglesHash_eq h
  · intro F _ _ _ conv alpha k hne
    have h0 : 0 < G.nodes := by
      obtain ⟨e, he⟩ := hne
      have := (h.range _ he).1
      omega
    choose! M hM using h.listNb
    obtain ⟨p, p1, p2, p3, p4⟩ := pageRank_ok (G := G) (L := M) h0 (fun x hx => (hM x hx).1)
      (fun x hx y hy => (h.range _ (((hM x hx).2.2 y).1 hy)).2) conv alpha k
    refine ⟨p, p1, p2, p4, fun hall => ?_⟩
    have hTn : ((List.range G.nodes).filter (fun x => !(M x).isEmpty)).length = G.nodes := by
      have : (List.range G.nodes).filter (fun x => !(M x).isEmpty) = List.range G.nodes := by
        rw [List.filter_eq_self]
        intro x hx
        have hx := List.mem_range.1 hx
        obtain ⟨y, hy⟩ := hall x hx
        have := ((hM x hx).2.2 y).2 hy
        cases hl : M x with
        | nil => rw [hl] at this; cases this
        | cons _ _ => rfl
      rw [this]; simp
    rw [hTn] at p3
    have hn' : (G.nodes : F) ≠ 0 := Nat.cast_ne_zero.2 (by omega)
    have h1 : (G.nodes : F) * (1 / (G.nodes : F)) = 1 := by field_simp
    simp only [massAfter, h1, sub_self, mul_zero, add_zero] at p3
    rcases p3 with h | ⟨_, _, h⟩
    · exact Or.inl h
    · exact Or.inr h
  · intro F _ _ _ conv alpha k hne ha ha1
    obtain ⟨p, p1, _, _, p2⟩ := PR.faithful_near h hne (conv := conv) ha ha1 k
    exact ⟨p, p1, p2⟩

theorem GraphI.searchLoop_count (G : GraphI) (m : Nat) (push : List Nat → Nat → List Nat) : ∀ (f : Nat) (q : List Nat)
    (vis : Nat → Bool) (path : List Nat),
    GraphI.searchLoop { G with nEdges := m } push f q vis path = G.searchLoop push f q vis path := by
  intro f
  induction f with
  | zero => intros; rfl
  | succ f ih =>
    intro q vis path
    cases q with
    | nil => rfl
    | cons u q =>
      simp only [GraphI.searchLoop]
      cases G.nb u with
      | ok l => simp only [Res.ok_bind]; exact ih _ _ _
      | _ => rfl

theorem GraphI.adjNode_count (G : GraphI) (m : Nat) : ∀ (xs : List Nat) (M : Nat → List Nat),
    GraphI.adjNode { G with nEdges := m } xs M = G.adjNode xs M := by
  intro xs
  induction xs with
  | nil => intros; rfl
  | cons x xs ih =>
    intro M
    simp only [GraphI.adjNode]
    cases G.listNb x with
    | ok l => simp only [Res.ok_bind]; exact ih _
    | _ => rfl

theorem GraphI.outLinks_count (G : GraphI) (m : Nat) : ∀ (xs : List Nat),
    GraphI.outLinks { G with nEdges := m } xs = G.outLinks xs := by
  intro xs
  induction xs with
  | nil => rfl
  | cons x xs ih => simp only [GraphI.outLinks, ih]

/-- The counter does not matter to these algorithms. -/
theorem GraphI.algorithms_count {G : GraphI} {m n : Nat} {E : Edge → Prop}
    (h : GraphI.Algorithms { G with nEdges := m } n E) : G.Algorithms n E := by
  constructor
  · have := h.bfs
    simp only [GraphI.bfs, GraphI.searchLoop_count] at this ⊢
    exact this
  · have := h.dfs
    simp only [GraphI.dfs, GraphI.searchLoop_count] at this ⊢
    exact this
  · have := h.triangles
    simp only [GraphI.trianglesHash, GraphI.adjNode_count] at this ⊢
    exact this
  · intro F _ _ _ conv alpha k
    have := h.pageRank F conv alpha k
    simp only [GraphI.pageRank, GraphI.outLinks_count] at this ⊢
    exact this
  · intro F _ _ _ conv alpha k
    have := h.rank F conv alpha k
    simp only [GraphI.pageRank, GraphI.outLinks_count] at this ⊢
    exact this

/-! ## No empty tree in `DKtree_delay` -/

namespace DKD

theorem unionMove_ne {d d' : DKD K} (h : ∀ t, some t ∈ d.slots → K.edges t ≠ []) (hr : d.unionMove = .ok d') :
    ∀ t, some t ∈ d'.slots → K.edges t ≠ [] := by
  unfold unionMove at hr
  split at hr
  · rw [Res.bind_eq_ok] at hr; obtain ⟨p, h1, hr⟩ := hr
    rw [Res.bind_eq_ok] at hr; obtain ⟨k1, h2, hr⟩ := hr
    rw [Res.bind_eq_ok] at hr; obtain ⟨k2, h3, hr⟩ := hr
    cases hr
    rw [rd_eq_ok] at h1
    rw [wr_eq_ok] at h2 h3
    obtain ⟨_, rfl⟩ := h2
    obtain ⟨_, rfl⟩ := h3
    intro t ht
    rcases List.mem_append.1 ht with ht | ht
    · rcases List.mem_or_eq_of_mem_set ht with ht | ht
      · rcases List.mem_or_eq_of_mem_set ht with ht | ht
        · exact h t (List.mem_append_left _ ht)
        · exact h t (List.mem_append_left _ (by rw [ht]; exact List.mem_of_getElem? h1))
      · cases ht
    · exact h t (List.mem_append_right _ ht)
  · rw [Res.bind_eq_ok] at hr; obtain ⟨k1, h2, hr⟩ := hr
    cases hr
    rw [wr_eq_ok] at h2
    obtain ⟨_, rfl⟩ := h2
    intro t ht
    rcases List.mem_append.1 ht with ht | ht
    · rcases List.mem_or_eq_of_mem_set ht with ht | ht
      · exact h t (List.mem_append_left _ ht)
      · exact h t (List.mem_append_right _ (by simp [ht]))
    · simp at ht

theorem unionLoop_ne (hK : K.Lawful) : ∀ (f : Nat) {d d' : DKD K}, AllValid K d.g.nv d.slots →
    (∀ t, some t ∈ d.slots → K.edges t ≠ []) → unionLoop f d = .ok d' → ∀ t, some t ∈ d'.slots → K.edges t ≠ [] := by
  intro f
  induction f with
  | zero => intro d d' _ h hr; exact unionMove_ne h hr
  | succ f ih =>
    intro d d' hv h hr
    have hun : ∀ t u, some t ∈ d.slots → some u ∈ d.slots → K.edges (K.union t u) ≠ [] := by
      intro t u ht hu hc
      have h1 := h t ht
      cases he : K.edges t with
      | nil => exact h1 he
      | cons e l =>
        have := (hK.union_edges _ t u (hv t ht) (hv u hu) e).2 (Or.inl (by rw [he]; simp))
        rw [hc] at this; cases this
    simp only [unionLoop] at hr
    rw [Res.bind_eq_ok] at hr; obtain ⟨o, h1, hr⟩ := hr
    rw [rd_eq_ok] at h1
    cases o with
    | none => simp only at hr; exact ih (d := { d with ui := d.ui + 1 }) hv h hr
    | some t =>
      have ht : some t ∈ d.slots := List.mem_append_left _ (List.mem_of_getElem? h1)
      simp only at hr
      split at hr
      · rw [Res.bind_eq_ok] at hr; obtain ⟨p, h2, hr⟩ := hr
        rw [Res.bind_eq_ok] at hr; obtain ⟨u, h3, hr⟩ := hr
        rw [Res.bind_eq_ok] at hr; obtain ⟨k1, h4, hr⟩ := hr
        rw [Res.bind_eq_ok] at hr; obtain ⟨k2, h5, hr⟩ := hr
        cases hr
        rw [rd_eq_ok] at h2
        rw [use_eq_ok] at h3
        rw [wr_eq_ok] at h4 h5
        obtain ⟨_, rfl⟩ := h4
        obtain ⟨_, rfl⟩ := h5
        have hu : some u ∈ d.slots := List.mem_append_left _ (by rw [← h3]; exact List.mem_of_getElem? h2)
        intro v hv'
        rcases List.mem_append.1 hv' with hv' | hv'
        · rcases List.mem_or_eq_of_mem_set hv' with hv' | hv'
          · rcases List.mem_or_eq_of_mem_set hv' with hv' | hv'
            · exact h v (List.mem_append_left _ hv')
            · cases hv'; exact hun t u ht hu
          · cases hv'
        · exact h v (List.mem_append_right _ hv')
      · rw [Res.bind_eq_ok] at hr; obtain ⟨u, h3, hr⟩ := hr
        rw [Res.bind_eq_ok] at hr; obtain ⟨k1, h4, hr⟩ := hr
        cases hr
        rw [use_eq_ok] at h3
        rw [wr_eq_ok] at h4
        obtain ⟨_, rfl⟩ := h4
        have hu : some u ∈ d.slots := List.mem_append_right _ (by rw [h3]; simp)
        intro v hv'
        rcases List.mem_append.1 hv' with hv' | hv'
        · rcases List.mem_or_eq_of_mem_set hv' with hv' | hv'
          · exact h v (List.mem_append_left _ hv')
          · cases hv'; exact hun t u ht hu
        · simp at hv'

theorem slots_ne {d : DKD K} (ht : d.tmp = none) (h : d.g.NoEmptyTree) : ∀ t, some t ∈ d.slots → K.edges t ≠ [] := by
  intro t hm
  rcases List.mem_append.1 hm with hm | hm
  · exact h t hm
  · rw [ht] at hm; simp at hm

theorem addEdge_ne (hK : K.Lawful) (nd : Bool) (S : Sizing) {d d' : DKD K} (hi : d.DInv) (h : d.g.NoEmptyTree)
    {e : Edge} (he : InRange d.g.nv e) (hr : d.addEdge nd S e = .ok d') : d'.g.NoEmptyTree := by
  unfold addEdge at hr
  rw [Res.bind_eq_ok] at hr; obtain ⟨d1, h1, hr⟩ := hr
  obtain ⟨i1, m1, n1, _⟩ := hi.pre hK h1
  have hne1 : d1.g.NoEmptyTree := by
    unfold pre at h1
    split at h1
    · cases h1; exact h
    · intro t ht
      refine unionLoop_ne hK _ ?_ (slots_ne hi.tmp h) h1 t (List.mem_append_left _ ht)
      exact allValid_slots.2 ⟨hi.inv.val, by simp [hi.tmp]⟩
  rw [← n1] at he
  have hc : d1.contains e = .ok (decide (e ∈ d1.g.edgesOf)) := i1.inv.contains_eq hK he
  rw [hc, Res.ok_bind] at hr
  by_cases hm : e ∈ d1.g.edgesOf
  · simp only [hm, decide_true, if_true] at hr
    cases hr; exact hne1
  · simp only [hm, decide_false, Bool.false_eq_true, if_false] at hr
    split at hr
    · rw [Res.bind_eq_ok] at hr; obtain ⟨c, _, hr⟩ := hr
      cases hr; exact hne1
    · split at hr
      · unfold DKD.flush at hr
        split at hr
        · cases hr
        · rename_i i hsel
          rw [i1.inv.c0wf.converted_eq] at hr
          obtain ⟨c', b1, _⟩ := i1.inv.c0wf.clean_ok
          simp only [Res.ok_bind, b1] at hr
          rw [Res.bind_eq_ok] at hr
          obtain ⟨d2, h2, hr⟩ := hr
          cases hr
          obtain ⟨v1, v2, _⟩ := build_live hK i1.inv he hm
          intro t ht
          refine unionLoop_ne hK _ ?_ ?_ h2 t (List.mem_append_left _ ht)
          · exact allValid_slots.2 ⟨i1.inv.val, by intro t ht; cases ht; exact v1⟩
          · intro u hu
            rcases List.mem_append.1 hu with hu | hu
            · exact hne1 u hu
            · simp at hu
              subst hu
              have := (v2 e).2 (Or.inr rfl)
              intro hc; rw [hc] at this; cases this
      · split at hr
        · cases hr; exact hne1
        · cases hr

theorem inserts_ne (hK : K.Lawful) {S : Sizing} (hT : S.Top) {n : Nat} (h2 : 2 ≤ n) :
    ∀ {es : List Edge} {d : DKD K}, (∀ e ∈ es, InRange n e) → run true K S n (inserts es) = .ok d → d.g.NoEmptyTree := by
  intro es
  induction es using List.reverseRecOn with
  | nil =>
    intro d _ h
    obtain ⟨rfl, _⟩ := run_nil h
    intro t ht
    simp [init, DK.init, List.mem_replicate] at ht
  | append_singleton es e ih =>
    intro d hes h
    have hins : inserts (es ++ [e]) = inserts es ++ [Op.add e] := by simp [inserts]
    rw [hins] at h
    obtain ⟨d0, h1, h3⟩ := run_snoc_ok h
    have hes' : ∀ e ∈ es, InRange n e := fun a ha => hes a (by simp [ha])
    obtain ⟨d1, q1, q2, q3, _⟩ := run_inserts hK hT h2 hes'
    rw [h1] at q1; cases q1
    exact addEdge_ne hK true S q3.inv (ih hes' h1) (by rw [q2]; exact hes e (by simp)) h3

end DKD

/-! ## C63 -/

/-- C63, neighbour loops on every history of `DKtree_delay` (assertions on), merge pending or not: the loop ends and
visits `list_neighbour(x)` in order. -/
theorem C63_neighbour (hK : K.Lawful) (S : Sizing) {n : Nat} (hn : n ≤ 2 ^ 31) {ops : List Op} {d : DKD K}
    (ho : OpsInRange n ops) (hr : DKD.run false K S n ops = .ok d) {x : Nat} (hx : x < n) :
    ∃ l, d.listNeighbour x = .ok l ∧ ∀ fuel, l.length < fuel → d.g.nbAll x fuel = .ok (l.map (fun y : Nat => (y : Int))) := by
  obtain ⟨t, hnv⟩ := DKD.run_track hK S ho hr
  obtain ⟨l, h1, h2⟩ := t.inv.inv.toWInv.nbAll_eq x
  obtain ⟨l', a1, _, a3⟩ := t.inv.inv.listNeighbour_some hK (x := x) (by rw [hnv]; exact hx)
  rw [a1] at h1; cases h1
  have hlt : ∀ y ∈ l, y < n := by
    intro y hy
    have hm : (x, y) ∈ d.g.edgesOf := by
      rcases List.mem_append.1 ((a3 y).1 hy) with h | h
      · exact List.mem_append_left _ h
      · refine List.mem_append_right _ ?_
        rw [← List.take_append_drop (d.g.maxR + 1) d.g.ks, flat_append]
        exact List.mem_append_left _ h
    rw [← hnv]; exact (t.inv.inv.range _ hm).2
  refine ⟨l, a1, fun f hf => ?_⟩
  rw [← toInt_small hn hlt]
  refine h2 ?_ f hf
  intro y hy
  rw [toInt_of_lt (by have := hlt y hy; omega)]
  omega

/-- C63 on every insertion history, in both builds: the edge loop ends and visits exactly the edges that `contains`
reports, each once, and the algorithms compute on exactly those. -/
theorem C63_consistent (hK : K.Lawful) (nd : Bool) {S : Sizing} (hT : S.Top) {n : Nat} (h2 : 2 ≤ n) (hn : n ≤ 9999999)
    {es : List Edge} (hes : ∀ e ∈ es, InRange n e) {d : DKD K} (hr : DKD.run nd K S n (inserts es) = .ok d) :
    (∃ l, (∀ fuel, l.length < fuel → d.g.eAll 0 fuel = .ok l) ∧ l.Nodup ∧
      ∀ e, e ∈ l ↔ InRange n e ∧ d.contains e = .ok true) ∧
    d.g.iface.Algorithms n (fun e => InRange n e ∧ d.contains e = .ok true) := by
  obtain ⟨d0, h1, h3, h4, h5, h6⟩ := DKD.run_inserts hK hT h2 hes
  have hd : d = d0 := by
    cases nd
    · rcases h6 with ⟨h6, _⟩ | ⟨h6, _⟩
      · rw [h6] at hr; cases hr
      · rw [h6] at hr; cases hr; rfl
    · rw [h1] at hr; cases hr; rfl
  subst hd
  have hmem : ∀ e, e ∈ d.g.edgesOf ↔ InRange n e ∧ d.contains e = .ok true := by
    intro e
    unfold DKD.contains
    constructor
    · intro he
      have hri := h4.inv.inv.range e he
      refine ⟨h3 ▸ hri, ?_⟩
      rw [h4.inv.inv.contains_eq hK hri]; simp [he]
    · rintro ⟨hri, hc⟩
      rw [h4.inv.inv.contains_eq hK (by rw [h3]; exact hri)] at hc
      simpa using hc
  have hne := DKD.inserts_ne hK hT h2 hes h1
  have hE : slots d.g.c0 ++ flat K d.g.ks = d.g.edgesOf := by
    rw [slots_eq_live h4.inv.inv.c0wf h4.fresh.c0m]; rfl
  refine ⟨⟨d.g.edgesOf, fun f hf => ?_, h4.inv.inv.nodup, hmem⟩, ?_⟩
  · rw [h4.inv.inv.toWInv.eAll_eq (by omega) hne (by
      rw [hE]
      intro hc
      have := (h4.inv.inv.range _ hc).1
      have h' : maxEdge.1 = 9999999 := rfl
      omega) f (by rw [hE]; exact hf), hE]
  · have hf := DK.faithful_seen hK h4.inv.inv h4.above hne h4.fresh.c0m (by omega) (by omega) hmem
    have hnodes : d.g.iface.nodes = n := h3
    have h9 : d.g.iface.Algorithms d.g.iface.nodes _ := GraphI.algorithms_count hf.algorithms
    rw [hnodes] at h9
    exact h9

/-- For any thresholds, on insertion histories that return with assertions on, merge pending or not: the edge loop visits each inserted
edge exactly once, and every algorithm computes on exactly the inserted edges. -/
theorem DKD.inserts_faithful (hK : K.Lawful) {S : Sizing} (hT : S.Top) {n : Nat} (h2 : 2 ≤ n) (hn : n ≤ 9999999) {es : List Edge}
    (hes : ∀ e ∈ es, InRange n e) {d : DKD K} (hr : DKD.run false K S n (inserts es) = .ok d) :
    d.g.iface.Faithful (fun e => e ∈ es) ∧ d.g.iface.Algorithms n (fun e => e ∈ es) := by
  obtain ⟨d', h1, h3, h4, h5, h6⟩ := DKD.run_inserts hK hT h2 hes
  rcases h6 with ⟨h6, _⟩ | ⟨h6, h7, h8⟩
  · rw [h6] at hr; cases hr
  · rw [h6] at hr; cases hr
    have hf := DK.faithful_of hK h4.inv.inv h4.above (DKD.inserts_ne hK hT h2 hes h1) h4.fresh.c0m
      (by omega) (by omega) h7 h8
    have hnodes : d.g.iface.nodes = n := h3
    exact ⟨hf, hnodes ▸ hf.algorithms⟩

/-- For any thresholds with a large enough buffer, with 162 vertices or more, in both builds: every insertion history returns and shows exactly its edges. -/
theorem DKD.inserts_large (hK : K.Lawful) {S : Sizing} (hT : S.Top) (hc6 : ∀ {m : Nat}, 162 ≤ m → 6 ≤ S.maxsz m 0) (nd : Bool) {n : Nat} (h2 : 162 ≤ n) (hn : n ≤ 9999999) {es : List Edge}
    (hes : ∀ e ∈ es, InRange n e) :
    ∃ d, DKD.run nd K S n (inserts es) = .ok d ∧ d.g.iface.Faithful (fun e => e ∈ es) ∧
      d.g.iface.Algorithms n (fun e => e ∈ es) := by
  obtain ⟨d', h1, h3, h4, h5, h6⟩ := DKD.run_inserts hK hT (by omega) hes
  rcases h6 with ⟨h6, m, hm, hc⟩ | ⟨h6, _⟩
  · have := hc6 (m := m) (by omega); omega
  · refine ⟨d', ?_, DKD.inserts_faithful hK hT (by omega) hn hes h6⟩
    cases nd
    · exact h6
    · exact h1

/-- C63 on insertion histories that return with assertions on, merge pending or not: the edge loop visits each inserted
edge exactly once, and every algorithm computes on exactly the inserted edges. -/
theorem C63_assert (hK : K.Lawful) {n : Nat} (h2 : 2 ≤ n) (hn : n ≤ 9999999) {es : List Edge}
    (hes : ∀ e ∈ es, InRange n e) {d : DKD K} (hr : DKD.run false K realSizing n (inserts es) = .ok d) :
    d.g.iface.Faithful (fun e => e ∈ es) ∧ d.g.iface.Algorithms n (fun e => e ∈ es) :=
  DKD.inserts_faithful hK realSizing_top h2 hn hes hr

/-- C63 with 162 vertices or more, in both builds: every insertion history returns and shows exactly its edges. -/
theorem C63_large (hK : K.Lawful) (nd : Bool) {n : Nat} (h2 : 162 ≤ n) (hn : n ≤ 9999999) {es : List Edge}
    (hes : ∀ e ∈ es, InRange n e) :
    ∃ d, DKD.run nd K realSizing n (inserts es) = .ok d ∧ d.g.iface.Faithful (fun e => e ∈ es) ∧
      d.g.iface.Algorithms n (fun e => e ∈ es) :=
  DKD.inserts_large hK realSizing_top realSizing_cap nd h2 hn hes

/-- Instance: 24 insertions on 8 vertices end with a merge pending; the edge loop visits them all and `bfs` reaches every
vertex. -/
example : ∃ d, DKD.run false refK2 realSizing 8 (inserts (w25.take 24)) = .ok d ∧ d.workDone = false ∧
    (∃ l, d.g.iface.edges = .ok l ∧ l.length = 24) ∧ d.g.iface.bfs 9 0 = .ok [0, 1, 2, 3, 4, 5, 6, 7] := by
  obtain ⟨d, hd, h1⟩ := DKD.real_check (nd := false) (n := 8) (ops := inserts (w25.take 24))
    (f := fun d => !d.workDone && check d.g.iface.edges (fun l => l.length == 24) &&
      decide (d.g.iface.bfs 9 0 = .ok [0, 1, 2, 3, 4, 5, 6, 7])) (by decide +kernel)
  simp only [Bool.and_eq_true, Bool.not_eq_true', decide_eq_true_eq] at h1
  obtain ⟨l, e1, e2⟩ := check_iff.1 h1.1.2
  exact ⟨d, hd, h1.1.1, ⟨l, e1, by simpa using e2⟩, h1.2⟩

end DK2
