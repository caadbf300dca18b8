import Verif.PRProofs
import Verif.PropsIter
/-!
# Properties of `Algorithm.hpp` (C25–C31)

`Algorithm<Graph>` is a template: theorems about the triangle counters are stated for every graph interface
`G : GraphI` that reports one edge set `E` consistently (`G.Faithful E`), and `C28_dktree` shows that
`DKtree` is such a graph.  Searches and pageRank are stated for `DKtree` directly.
-/

namespace DK2
open DK GraphI

variable {K : K2Impl}

/-! ## The interface of a `DKtree` -/

theorem toEtype_cast {y : Nat} (h : y < 2 ^ 32) : toEtype (y : Int) = y := by
  unfold toEtype
  have : ((y : Int) % 2 ^ 32) = (y : Int) := by
    rw [Int.emod_eq_of_lt] <;> omega
  rw [this]; simp

theorem toEtype_map {n : Nat} (hn : n ≤ 2 ^ 31) {l : List Nat} (h : ∀ y ∈ l, y < n) :
    (l.map (fun y : Nat => (y : Int))).map toEtype = l := by
  rw [List.map_map]
  conv_rhs => rw [← List.map_id l]
  exact List.map_congr_left fun y hy => toEtype_cast (by have := h y hy; omega)

/-- Every history: `list_neighbour` and the neighbour loop agree and stay in range. -/
theorem iface_nb (hK : K.Lawful) (S : Sizing) {n : Nat} (hn : n ≤ 2 ^ 31) {ops : List Op} {g : DK K}
    (ho : OpsInRange n ops) (hr : run K S n ops = .ok g) {x : Nat} (hx : x < n) :
    ∃ l, g.listNeighbour x = .ok l ∧ g.iface.nb x = .ok l ∧ ∀ y ∈ l, y < n := by
  obtain ⟨l, h1, h2⟩ := C09_neighbour_iterator hK S hn ho hr hx
  have hlt := listNeighbour_lt hK S ho hr hx h1
  refine ⟨l, h1, ?_, hlt⟩
  show (g.listNeighbour x >>= fun l => g.nbAll x (l.length + 1) >>= fun m => Res.ok (m.map toEtype)) = _
  rw [h1]
  simp only [Res.ok_bind, h2 _ (Nat.lt_succ_self _)]
  rw [toEtype_map hn hlt]

/-- The edge relation `list_neighbour` reports. -/
def reported (g : DK K) : Edge → Prop := fun e => ∃ l, g.listNeighbour e.1 = .ok l ∧ e.2 ∈ l

theorem specMem_range {n : Nat} {ops : List Op} (ho : OpsInRange n ops) {e : Edge} (h : specMem ops e) :
    InRange n e := by
  obtain ⟨pre, post, rfl, _⟩ := h
  exact ho (.add e) (by simp)

/-- Histories without reorganisation and without an erased buffer slot (in particular all insert-only
ones): everything `Algorithm` observes agrees with the specification. -/
theorem iface_faithful (hK : K.Lawful) (hF : K.ForcedPure) (S : Sizing) {n : Nat} (h0 : n ≠ 0)
    (hn : n ≤ 9999999) {ops : List Op} {g : DK K} (ho : OpsInRange n ops) (hq : Quiet K S n ops)
    (hr : run K S n ops = .ok g) (hm : g.c0.marked = 0) : g.iface.Faithful (specMem ops) := by
  obtain ⟨t, hnv⟩ := run_exact hK hF S ho hq hr
  have hmem : ∀ e, e ∈ g.edgesOf ↔ specMem ops e := fun e => by rw [t.mem, specMem_iff_specRun]
  have hE : slots g.c0 ++ flat K g.ks = g.edgesOf := by rw [slots_eq_live t.inv.c0wf hm]; rfl
  constructor
  · intro e he
    show InRange g.nv e
    rw [hnv]; exact specMem_range ho he
  · refine ⟨g.edgesOf, ?_, t.inv.nodup, hmem⟩
    have hfuel : (slots g.c0 ++ flat K g.ks).length < g.c0.elementsNodes.length +
        (g.ks.map (fun o => (o.map (fun t => (K.edges t).length)).getD 0)).sum + 1 := by
      have h1 : (slots g.c0).length ≤ g.c0.elementsNodes.length := by
        have e1 := t.inv.c0wf.size_eq; have e2 := t.inv.c0wf.live_length
        have e3 : g.c0.liveSlots.length ≤ g.c0.nElements := by
          unfold C0.liveSlots
          exact le_trans (List.length_filter_le _ _) (by simp)
        have e4 := t.inv.c0wf.n_le
        have e5 := t.inv.c0wf.len_en
        simp only [slots, List.length_map, List.length_range]
        omega
      have h2 : ∀ ks : List (Option K.T), (flat K ks).length =
          (ks.map (fun o => (o.map (fun t => (K.edges t).length)).getD 0)).sum := by
        intro ks
        induction ks with
        | nil => rfl
        | cons o ks ih => cases o <;> simp [ih]
      rw [List.length_append, h2]; omega
    show g.eAll 0 _ = _
    rw [t.inv.toWInv.eAll_eq (by rw [hnv]; exact h0) (run_noEmpty hK hF S ho hq hr) (by
      rw [hE]
      intro hc
      have := (t.inv.range _ hc).1
      rw [hnv] at this
      have h' : maxEdge.1 = 9999999 := rfl
      omega) _ hfuel, hE]
  · intro x hx
    have hx : x < n := by rw [← hnv]; exact hx
    obtain ⟨l, a1, a2, a3⟩ := C07_quiet_partial hK hF S ho hq hx hr
    exact ⟨l, a1, a2, a3⟩
  · intro x hx
    have hx : x < n := by rw [← hnv]; exact hx
    obtain ⟨l, a1, a2, a3⟩ := C07_quiet_partial hK hF S ho hq hx hr
    obtain ⟨l', b1, b2, _⟩ := iface_nb hK S (by omega) ho hr hx
    rw [a1] at b1; cases b1
    exact ⟨l, b2, a2, a3⟩
  · show (g.nodeAll (g.nv + 1) >>= fun m => Res.ok (m.map toEtype)) = _
    obtain ⟨h1, _⟩ := C11_node_iterator hK S (by omega) ho hr
    rw [h1 (g.nv + 1) (by omega)]
    simp only [Res.ok_bind]
    show Res.ok _ = Res.ok (List.range g.nv)
    rw [toEtype_map (n := n) (by omega) (fun y hy => List.mem_range.1 hy), hnv]
  · intro e he
    have he : InRange n e := by
      have : InRange g.nv e := he
      rw [hnv] at this; exact this
    obtain ⟨⟨b, hb⟩, h2⟩ := C01_quiet_partial hK hF S ho hq hr he
    refine ⟨b, hb, ?_⟩
    rw [← h2, hb]; simp
  · exact ⟨g.edgesOf, t.cnt.symm, t.inv.nodup, hmem⟩

/-! ## C25, C26 bfs -/

/-- C25, C26: whatever the history, `bfs(root)` ends and returns each vertex reachable along the edges that
`list_neighbour` reports exactly once, root first, in non-decreasing distance from `root`. -/
theorem C25_C26_bfs (hK : K.Lawful) (S : Sizing) {n : Nat} (hn : n ≤ 2 ^ 31) {ops : List Op} {g : DK K}
    (ho : OpsInRange n ops) (hr : run K S n ops = .ok g) {root : Nat} (hroot : root < n) {fuel : Nat}
    (hf : n < fuel) :
    ∃ p, g.iface.bfs fuel root = .ok p ∧ p.Nodup ∧ p.head? = some root ∧
      (∀ v, v ∈ p ↔ Reach (reported g) root v) ∧ p.Pairwise (NotFarther (reported g) root) := by
  let N : Nat → List Nat := fun x => match g.listNeighbour x with | .ok l => l | _ => []
  have hNx : ∀ x l, g.listNeighbour x = .ok l → N x = l := by
    intro x l h; show (match g.listNeighbour x with | .ok l => l | _ => []) = l; rw [h]
  have hE : (fun x y => y ∈ N x) = (fun x y => reported g (x, y)) := by
    funext x y
    apply propext
    constructor
    · intro h
      cases hl : g.listNeighbour x with
      | ok l => exact ⟨l, hl, by rw [← hNx x l hl]; exact h⟩
      | _ =>
        exfalso
        have : N x = [] := by
          show (match g.listNeighbour x with | .ok l => l | _ => []) = []; rw [hl]
        rw [this] at h; cases h
    · rintro ⟨l, h1, h2⟩
      rw [hNx x l h1]; exact h2
  obtain ⟨p, h1, h2, h3, h4, h5⟩ := bfs_spec (G := g.iface) (N := N) (n := n)
    (fun x hx => by
      obtain ⟨l, a1, a2, _⟩ := iface_nb hK S hn ho hr hx
      rw [a2, hNx x l a1])
    (fun x hx y hy => by
      obtain ⟨l, a1, _, a3⟩ := iface_nb hK S hn ho hr hx
      rw [hNx x l a1] at hy; exact a3 y hy)
    hroot hf
  rw [hE] at h4 h5
  exact ⟨p, h1, h2, h3, h4, h5⟩

/-- C25, C26 against the specification, on histories without reorganisation. -/
theorem C25_C26_bfs_spec (hK : K.Lawful) (hF : K.ForcedPure) (S : Sizing) {n : Nat} (hn : n ≤ 2 ^ 31)
    {ops : List Op} {g : DK K} (ho : OpsInRange n ops) (hq : Quiet K S n ops) (hr : run K S n ops = .ok g)
    {root : Nat} (hroot : root < n) {fuel : Nat} (hf : n < fuel) :
    ∃ p, g.iface.bfs fuel root = .ok p ∧ p.Nodup ∧ p.head? = some root ∧
      (∀ v, v ∈ p ↔ Reach (specMem ops) root v) ∧ p.Pairwise (NotFarther (specMem ops) root) := by
  choose! L hL using fun x (hx : x < n) => C07_quiet_partial hK hF S ho hq hx hr
  let N : Nat → List Nat := fun x => if x < n then L x else []
  have hE : (fun x y => y ∈ N x) = (fun x y => specMem ops (x, y)) := by
    funext x y
    apply propext
    show y ∈ (if x < n then L x else []) ↔ _
    by_cases hx : x < n
    · rw [if_pos hx]; exact (hL x hx).2.2 y
    · rw [if_neg hx]
      simp only [List.not_mem_nil, false_iff]
      exact fun h => hx (specMem_range ho h).1
  obtain ⟨p, h1, h2, h3, h4, h5⟩ := bfs_spec (G := g.iface) (N := N) (n := n)
    (fun x hx => by
      obtain ⟨l, a1, a2, _⟩ := iface_nb hK S hn ho hr hx
      rw [(hL x hx).1] at a1; cases a1
      rw [a2]; show _ = Res.ok (if x < n then L x else []); rw [if_pos hx])
    (fun x hx y hy => by
      have : specMem ops (x, y) := by rw [← congrFun (congrFun hE x) y]; exact hy
      exact (specMem_range ho this).2)
    hroot hf
  rw [hE] at h4 h5
  exact ⟨p, h1, h2, h3, h4, h5⟩

/-! ## C27 dfs -/

/-- C27: `dfs(root)` ends and returns each vertex reachable along the edges that `list_neighbour` reports
exactly once, root first. -/
theorem C27_dfs (hK : K.Lawful) (S : Sizing) {n : Nat} (hn : n ≤ 2 ^ 31) {ops : List Op} {g : DK K}
    (ho : OpsInRange n ops) (hr : run K S n ops = .ok g) {root : Nat} (hroot : root < n) {fuel : Nat}
    (hf : n < fuel) :
    ∃ p, g.iface.dfs fuel root = .ok p ∧ p.Nodup ∧ p.head? = some root ∧
      (∀ v, v ∈ p ↔ Reach (reported g) root v) := by
  let N : Nat → List Nat := fun x => match g.listNeighbour x with | .ok l => l | _ => []
  have hNx : ∀ x l, g.listNeighbour x = .ok l → N x = l := by
    intro x l h; show (match g.listNeighbour x with | .ok l => l | _ => []) = l; rw [h]
  have hE : (fun x y => y ∈ N x) = (fun x y => reported g (x, y)) := by
    funext x y
    apply propext
    constructor
    · intro h
      cases hl : g.listNeighbour x with
      | ok l => exact ⟨l, hl, by rw [← hNx x l hl]; exact h⟩
      | _ =>
        exfalso
        have : N x = [] := by
          show (match g.listNeighbour x with | .ok l => l | _ => []) = []; rw [hl]
        rw [this] at h; cases h
    · rintro ⟨l, h1, h2⟩
      rw [hNx x l h1]; exact h2
  obtain ⟨p, h1, h2, h3, h4⟩ := dfs_spec (G := g.iface) (N := N) (n := n)
    (fun x hx => by
      obtain ⟨l, a1, a2, _⟩ := iface_nb hK S hn ho hr hx
      rw [a2, hNx x l a1])
    (fun x hx y hy => by
      obtain ⟨l, a1, _, a3⟩ := iface_nb hK S hn ho hr hx
      rw [hNx x l a1] at hy; exact a3 y hy)
    hroot hf
  rw [hE] at h4
  exact ⟨p, h1, h2, h3, h4⟩

/-- C27 against the specification, on histories without reorganisation. -/
theorem C27_dfs_spec (hK : K.Lawful) (hF : K.ForcedPure) (S : Sizing) {n : Nat} (hn : n ≤ 2 ^ 31)
    {ops : List Op} {g : DK K} (ho : OpsInRange n ops) (hq : Quiet K S n ops) (hr : run K S n ops = .ok g)
    {root : Nat} (hroot : root < n) {fuel : Nat} (hf : n < fuel) :
    ∃ p, g.iface.dfs fuel root = .ok p ∧ p.Nodup ∧ p.head? = some root ∧
      (∀ v, v ∈ p ↔ Reach (specMem ops) root v) := by
  choose! L hL using fun x (hx : x < n) => C07_quiet_partial hK hF S ho hq hx hr
  let N : Nat → List Nat := fun x => if x < n then L x else []
  have hE : (fun x y => y ∈ N x) = (fun x y => specMem ops (x, y)) := by
    funext x y
    apply propext
    show y ∈ (if x < n then L x else []) ↔ _
    by_cases hx : x < n
    · rw [if_pos hx]; exact (hL x hx).2.2 y
    · rw [if_neg hx]
      simp only [List.not_mem_nil, false_iff]
      exact fun h => hx (specMem_range ho h).1
  obtain ⟨p, h1, h2, h3, h4⟩ := dfs_spec (G := g.iface) (N := N) (n := n)
    (fun x hx => by
      obtain ⟨l, a1, a2, _⟩ := iface_nb hK S hn ho hr hx
      rw [(hL x hx).1] at a1; cases a1
      rw [a2]; show _ = Res.ok (if x < n then L x else []); rw [if_pos hx])
    (fun x hx y hy => by
      have : specMem ops (x, y) := by rw [← congrFun (congrFun hE x) y]; exact hy
      exact (specMem_range ho this).2)
    hroot hf
  rw [hE] at h4
  exact ⟨p, h1, h2, h3, h4⟩

/-- A small graph: 0→1, 1→2, 2→0, 0→3, 4→0 (vertex 4 not reachable from 0). -/
def wGraph : List Op := [.add (0, 1), .add (1, 2), .add (2, 0), .add (0, 3), .add (4, 0)]

/-- Instance of C25–C27: bfs and dfs from vertex 0 of `wGraph`. -/
example : ∃ g : DK refK2, run refK2 realSizing 5 wGraph = .ok g ∧
    decide (g.iface.bfs 6 0 = .ok [0, 3, 1, 2] ∧ g.iface.dfs 6 0 = .ok [0, 1, 2, 3]) = true :=
  real_check (by decide) (by decide)

/-! ## C28–C30 triangles -/

/-- C28: `count_triangles_dummy_hash()` is the number of directed triangles with a chosen first vertex
(returned as an `int`: exactly, when below `2^31`). -/
theorem C28_hash {G : GraphI} {E : Edge → Prop} (h : G.Faithful E) :
    G.trianglesHash = .ok (toInt (countTriples G.nodes (DirTriangle E))) ∧
    (countTriples G.nodes (DirTriangle E) < 2 ^ 31 →
      G.trianglesHash = .ok (countTriples G.nodes (DirTriangle E) : Int)) := by
  refine ⟨trianglesHash_eq h, fun hlt => ?_⟩
  rw [trianglesHash_eq h, toInt_of_lt hlt]

/-- C28 for `DKtree`: insert-only graphs, real thresholds. -/
theorem C28_dktree (hK : K.Lawful) (hF : K.ForcedPure) {n : Nat} (h2 : 2 ≤ n) (hn : n ≤ 9999999)
    {es : List Edge} (hes : ∀ e ∈ es, InRange n e) :
    ∃ g : DK K, run K realSizing n (es.map Op.add) = .ok g ∧ g.iface.Faithful (fun e => e ∈ es) ∧
      g.iface.trianglesHash = .ok (toInt (countTriples n (DirTriangle (fun e => e ∈ es)))) := by
  obtain ⟨g, h1, hf, h3, h4⟩ := run_inserts hK hF realSizing_top h2 hes
  have ho : OpsInRange n (inserts es) := by
    intro o hoo
    obtain ⟨e, he, rfl⟩ := List.mem_map.1 hoo
    exact hes e he
  have hfa := iface_faithful hK hF realSizing (by omega) hn ho (inserts_quiet _ _ _) h1 hf.c0m
  have hE : (specMem (inserts es)) = (fun e => e ∈ es) := by
    funext e
    apply propext
    rw [specMem_iff_specRun, specRun_inserts]
  rw [hE] at hfa
  refine ⟨g, h1, hfa, ?_⟩
  have := trianglesHash_eq hfa
  have hnn : g.iface.nodes = n := h3
  rw [hnn] at this
  exact this

/-- Instance of C28: the triangle 0→1→2→0 of `wGraph` is counted three times. -/
example : ∃ g : DK refK2, run refK2 realSizing 5 wGraph = .ok g ∧
    decide (g.iface.trianglesHash = .ok 3 ∧ g.iface.trianglesDummy = .ok 3) = true :=
  real_check (by decide) (by decide)

/-- C29: both counters return the same number. -/
def C29_Full : Prop := ∀ (G : GraphI) (E : Edge → Prop), G.Faithful E →
  ∃ c : Nat, G.trianglesHash = .ok (toInt c) ∧ G.trianglesDummy = .ok (c % 2 ^ 32)

/-- Self-loops: 0→1, 1→0, 0→0 has no triangle, but `count_triangles_dummy` returns 2. -/
def wLoop : List Edge := [(0, 1), (1, 0), (0, 0)]

theorem C29_refuted : ¬ C29_Full := by
  intro h
  obtain ⟨g, hg, h1⟩ := real_check (n := 5) (ops := wLoop.map Op.add)
    (f := fun g => decide (g.iface.trianglesHash = .ok 0 ∧ g.iface.trianglesDummy = .ok 2))
    (by decide) (by decide)
  simp only [decide_eq_true_eq] at h1
  obtain ⟨g', hg', hfa, _⟩ := C28_dktree refK2_lawful refK2_forcedPure (n := 5) (by decide) (by decide)
    (es := wLoop) (by decide)
  rw [hg] at hg'; cases hg'
  obtain ⟨c, c1, c2⟩ := h _ _ hfa
  rw [h1.1] at c1; rw [h1.2] at c2
  have d1 := Res.ok.inj c1
  have d2 := Res.ok.inj c2
  unfold toInt at d1
  rw [← d2] at d1
  norm_num at d1

theorem countTriples_add {n : Nat} {P Q R : Nat → Nat → Nat → Prop} (h : ∀ a b c, P a b c ↔ Q a b c ∨ R a b c)
    (hd : ∀ a b c, ¬ (Q a b c ∧ R a b c)) : countTriples n P = countTriples n Q + countTriples n R := by
  classical
  unfold countTriples
  rw [← Finset.card_union_of_disjoint]
  · congr 1
    ext ⟨a, b, c⟩
    simp only [Finset.mem_filter, Finset.mem_union, h]
    tauto
  · rw [Finset.disjoint_left]
    intro t h1 h2
    exact hd _ _ _ ⟨(Finset.mem_filter.1 h1).2, (Finset.mem_filter.1 h2).2⟩

theorem countTriples_zero {n : Nat} {P : Nat → Nat → Nat → Prop} (h : ∀ a b c, ¬ P a b c) :
    countTriples n P = 0 := by
  classical
  unfold countTriples
  rw [Finset.card_eq_zero, Finset.filter_eq_empty_iff]
  rintro ⟨a, b, c⟩ _ h1
  exact h _ _ _ h1

/-- What `count_triangles_dummy()` returns: the directed triangles plus the degenerate walks through a
self-loop.  Without self-loops it agrees with the hash version.  Missing: graphs with self-loops (false,
`C29_refuted`). -/
theorem C29_partial {G : GraphI} {E : Edge → Prop} (h : G.Faithful E) :
    (G.trianglesDummy = .ok ((countTriples G.nodes (DirTriangle E) +
      countTriples G.nodes (fun a b c => a ≠ b ∧ (c = a ∨ c = b) ∧ E (a, b) ∧ E (b, c) ∧ E (c, a))) % 2 ^ 32)) ∧
    ((∀ a, ¬ E (a, a)) → ∃ c : Nat, G.trianglesHash = .ok (toInt c) ∧ G.trianglesDummy = .ok (c % 2 ^ 32)) := by
  have h1 : G.trianglesDummy = .ok ((countTriples G.nodes (DirTriangle E) +
      countTriples G.nodes (fun a b c => a ≠ b ∧ (c = a ∨ c = b) ∧ E (a, b) ∧ E (b, c) ∧ E (c, a))) % 2 ^ 32) := by
    rw [trianglesDummy_eq h, ← countTriples_add]
    · intro a b c
      unfold DirTriangle
      by_cases h1 : c = a
      · subst h1; simp
      · by_cases h2 : c = b
        · subst h2; simp
        · have h1' : a ≠ c := fun hh => h1 hh.symm
          have h2' : b ≠ c := fun hh => h2 hh.symm
          simp [h1, h2, h1', h2']
    · rintro a b c ⟨⟨_, h3, h4, _⟩, _, h5 | h5, _⟩
      · exact h4 h5.symm
      · exact h3 h5.symm
  refine ⟨h1, fun hno => ?_⟩
  refine ⟨countTriples G.nodes (DirTriangle E), trianglesHash_eq h, ?_⟩
  rw [h1]
  have : countTriples G.nodes (fun a b c => a ≠ b ∧ (c = a ∨ c = b) ∧ E (a, b) ∧ E (b, c) ∧ E (c, a)) = 0 := by
    apply countTriples_zero
    rintro a b c ⟨_, h2 | h2, _, h3, h4⟩
    · rw [h2] at h4; exact hno _ h4
    · rw [h2] at h3; exact hno _ h3
  rw [this, Nat.add_zero]

/-- C30: `count_triangles()` is the number of triangles, in any of the usual senses: directed triangles
(with or without a chosen first vertex), or transitive ones. -/
def C30_Full : Prop := ∀ (G : GraphI) (E : Edge → Prop), G.Faithful E → (∀ a, ¬ E (a, a)) →
  ∃ c, G.triangles = .ok c ∧ (0 < countTriples G.nodes (DirTriangle E) → 0 < c)

/-- A single directed triangle is not found at all. -/
theorem C30_refuted : ¬ C30_Full := by
  intro h
  obtain ⟨g, hg, h1⟩ := real_check (n := 5) (ops := [(0, 1), (1, 2), (2, 0)].map Op.add)
    (f := fun g => decide (g.iface.triangles = .ok 0 ∧ g.iface.trianglesHash = .ok 3))
    (by decide) (by decide)
  simp only [decide_eq_true_eq] at h1
  obtain ⟨g', hg', hfa, h2⟩ := C28_dktree refK2_lawful refK2_forcedPure (n := 5) (by decide) (by decide)
    (es := [(0, 1), (1, 2), (2, 0)]) (by decide)
  rw [hg] at hg'; cases hg'
  obtain ⟨c, c1, c2⟩ := h _ _ hfa (by intro a; simp; omega)
  rw [h1.1] at c1
  have d1 := Res.ok.inj c1
  have hnn : g.iface.nodes = 5 := by
    have := run_weak refK2_lawful realSizing (by decide) hg
    exact this.2.1
  rw [hnn] at c2
  rw [h1.2] at h2
  have d2 := Res.ok.inj h2
  by_cases h0 : 0 < countTriples 5 (DirTriangle (fun e => e ∈ ([(0, 1), (1, 2), (2, 0)] : List Edge)))
  · have := c2 h0; omega
  · have h0' : countTriples 5 (DirTriangle (fun e => e ∈ ([(0, 1), (1, 2), (2, 0)] : List Edge))) = 0 := by omega
    rw [h0'] at d2
    norm_num [toInt] at d2

/-- What `count_triangles()` does count: pairs of an edge `a→b` from a light to a heavy vertex and a path
`a→u→b` with `a` before `u` in the degree order; in particular it returns 0 whenever no out-degree reaches
`sqrt(m)`.  Missing: all other triangles (false, `C30_refuted`). -/
theorem C30_partial {G : GraphI} {E : Edge → Prop} (h : G.Faithful E) :
    G.triangles = .ok (countTriples G.nodes (HeavyTriple G.nodes G.nEdges E) % 2 ^ 32) ∧
    ((∀ v, outDeg G.nodes E v * outDeg G.nodes E v < G.nEdges) → G.triangles = .ok 0) := by
  refine ⟨triangles_eq h, fun hv => ?_⟩
  have : countTriples G.nodes (HeavyTriple G.nodes G.nEdges E) = 0 := by
    apply countTriples_zero
    rintro a b c ⟨_, _, _, _, h5, _⟩
    have := hv b
    omega
  rw [triangles_eq h, this]; rfl

/-- Instance of C30: a graph on which it finds one path through a heavy vertex. -/
example : ∃ g : DK refK2, run refK2 realSizing 6 ([(0, 1), (0, 2), (2, 1), (1, 3), (1, 4), (1, 5), (2, 3)].map Op.add) = .ok g ∧
    decide (g.iface.triangles = .ok 1) = true := real_check (by decide) (by decide)

/-! ## C31 pageRank -/

section
variable {F : Type} [Field F] [LinearOrder F] [IsStrictOrderedRing F]

/-- C31, one turn of the loop: a completed sweep maps the total mass `M` to `alpha*M + (1-alpha)` (dangling
vertices included), keeps one rank per vertex and non-negativity, and never leaves its vectors; a sweep cut
short by the convergence test has changed the mass by less than `n*conv`. -/
theorem C31_sweep {n : Nat} (hn : 0 < n) {out : List (List Nat)} (hlen : out.length = n)
    (htgt : ∀ l ∈ out, ∀ v ∈ l, v < n) (alpha conv : F) {old : List F} (ho : old.length = n) :
    ∃ r, prTurn alpha conv n out ((List.range n).filter (fun i => ((out[i]?).getD []).isEmpty)) old = .ok r ∧
      (∀ p, r = .inr p → p.length = n ∧ p.sum = alpha * old.sum + (1 - alpha) ∧
        (0 ≤ alpha → alpha ≤ 1 → (∀ x ∈ old, 0 ≤ x) → ∀ x ∈ p, 0 ≤ x)) ∧
      (∀ p, r = .inl p → p.length = n ∧ |p.sum - old.sum| < n * conv ∧
        (0 ≤ alpha → alpha ≤ 1 → (∀ x ∈ old, 0 ≤ x) → ∀ x ∈ p, 0 ≤ x)) := by
  obtain ⟨r, h1, h2, h3⟩ := prTurn_ok hn (⟨hlen, htgt⟩ : Links n out) (alpha := alpha) (conv := conv) ho
  refine ⟨r, h1, ?_, ?_⟩
  · rintro p rfl; exact ⟨h2.1, h2.2, h3⟩
  · rintro p rfl; exact ⟨h2.1, h2.2, h3⟩

open Classical in
/-- C31 for `DKtree`, any history that leaves an edge: `pageRank` returns one rank per vertex, non-negative for
`0 ≤ alpha ≤ 1`; if `T > 0` of the `n` vertices have successors the returned mass is
`1 + alpha^k (n/T - 1)` for the number `k` of sweeps, up to `n*conv` when the convergence test stopped it;
with no dangling vertex it is 1 (up to `n*conv`). -/
theorem C31_pageRank (hK : K.Lawful) (S : Sizing) {n : Nat} (hn : n ≤ 2 ^ 31) {ops : List Op}
    {g : DK K} (ho : OpsInRange n ops) (hr : run K S n ops = .ok g) (hne : ∃ x y, x < n ∧ reported g (x, y)) (conv alpha : F)
    (maxIter : Nat) :
    ∃ p, g.iface.pageRank conv maxIter alpha = .ok p ∧ p.length = n ∧
      (0 ≤ alpha → alpha ≤ 1 → ∀ x ∈ p, 0 ≤ x) ∧
      (∃ T : Nat, T = ((List.range n).filter (fun x => decide (∃ y, reported g (x, y)))).length ∧ 0 < T ∧
        (p.sum = 1 + alpha ^ maxIter * ((n : F) * (1 / (T : F)) - 1) ∨
          ∃ k, k < maxIter ∧ |p.sum - (1 + alpha ^ k * ((n : F) * (1 / (T : F)) - 1))| < n * conv)) ∧
      ((∀ x, x < n → ∃ y, reported g (x, y)) → p.sum = 1 ∨ |p.sum - 1| < n * conv) := by
  classical
  obtain ⟨x0, y0, hx0, hy0⟩ := hne
  have h0 : 0 < n := by omega
  obtain ⟨_, hnv, _⟩ := run_weak hK S ho hr
  have hnodes : g.iface.nodes = n := hnv
  choose! L hL using fun x (hx : x < n) => iface_nb hK S hn ho hr hx
  obtain ⟨p, p1, p2, p3, p4⟩ := pageRank_ok (G := g.iface) (L := L) (by rw [hnodes]; exact h0)
    (fun x hx => (hL x (by rw [← hnodes]; exact hx)).1)
    (fun x hx y hy => by rw [hnodes] at hx ⊢; exact (hL x hx).2.2 y hy) conv alpha maxIter
  rw [hnodes] at p2 p3
  have hT : ((List.range n).filter (fun x => !(L x).isEmpty)).length =
      ((List.range n).filter (fun x => decide (∃ y, reported g (x, y)))).length := by
    congr 1
    apply List.filter_congr
    intro x hx
    have hx := List.mem_range.1 hx
    cases hl : L x with
    | nil =>
      symm
      simp only [List.isEmpty_nil, Bool.not_true, decide_eq_false_iff_not, not_exists]
      rintro y ⟨l, h1, h2⟩
      rw [(hL x hx).1] at h1; cases h1
      simp only at h2
      rw [hl] at h2; cases h2
    | cons y l =>
      symm
      simp only [List.isEmpty_cons, Bool.not_false, decide_eq_true_eq]
      exact ⟨y, L x, (hL x hx).1, by rw [hl]; simp⟩
  rw [hT] at p3
  refine ⟨p, p1, p2, p4, ⟨_, rfl, List.length_pos_of_mem (a := x0) (List.mem_filter.2 ⟨List.mem_range.2 hx0,
    decide_eq_true ⟨y0, hy0⟩⟩), p3⟩, fun hall => ?_⟩
  have hn' : (n : F) ≠ 0 := Nat.cast_ne_zero.2 (by omega)
  have hTn : ((List.range n).filter (fun x => decide (∃ y, reported g (x, y)))).length = n := by
    have : (List.range n).filter (fun x => decide (∃ y, reported g (x, y))) = List.range n := by
      rw [List.filter_eq_self]
      intro x hx
      exact decide_eq_true (hall x (List.mem_range.1 hx))
    rw [this]; simp
  rw [hTn] at p3
  have h1 : (n : F) * (1 / (n : F)) = 1 := by field_simp
  simp only [massAfter, h1, sub_self, mul_zero, add_zero] at p3
  rcases p3 with h | ⟨_, _, h⟩
  · exact Or.inl h
  · exact Or.inr h

end

/-- Instance of C31: two vertices pointing at each other, two sweeps, over the rationals. -/
example : ∃ g : DK refK2, run refK2 realSizing 2 [.add (0, 1), .add (1, 0)] = .ok g ∧
    decide (g.iface.nb 0 = .ok [1] ∧ g.iface.pageRank (F := ℚ) 0 2 (1 / 2) = .ok [1 / 2, 1 / 2]) = true :=
  real_check (by decide) (by decide +kernel)

end DK2
