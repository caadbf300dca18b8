import Verif.Prog
import Verif.PropsAlias
import Verif.PropsSer
import Verif.VarAlgo
/-!
# Property theorem: whole programs that build, copy, query, save and load graphs (C86)
-/

namespace DK2
open DK HG

variable {K : K2Impl}

/-! ## One object -/

/-- The value `g` is a graph built by insertions that represents `A`. -/
structure Holds (g : DK K) (A : SGraph) : Prop where
  fresh : g.Fresh
  exact : Exact g (· ∈ A.E)
  ne : g.NoEmptyTree
  nv : g.nv = A.n
  lo : 2 ≤ A.n
  hi : A.n ≤ 9999999

theorem Holds.init (S : Sizing) {n : Nat} (h2 : 2 ≤ n) (hn : n ≤ 9999999) : Holds (DK.init K S n) ⟨n, ∅⟩ where
  fresh := ⟨rfl, by intro t ht; simp [DK.init, List.mem_replicate] at ht⟩
  exact := ⟨init_inv S n, by intro e; simp [init_edges], by rw [init_edges]; rfl, init_noneAbove S n⟩
  ne := by intro t ht; simp [DK.init, List.mem_replicate] at ht
  nv := rfl
  lo := h2
  hi := hn

theorem Holds.add (hK : K.Lawful) (hF : K.ForcedPure) {S : Sizing} (hT : S.Top) {g : DK K} {A : SGraph}
    (h : Holds g A) {e : Edge} (he : InRange A.n e) :
    ∃ g', g.addEdge S e = .ok g' ∧ Holds g' ⟨A.n, insert e A.E⟩ := by
  have he' : InRange g.nv e := by rw [h.nv]; exact he
  obtain ⟨g', h1, h2⟩ := addEdge_total hK hF hT h.exact.inv h.exact.cnt h.fresh he' (by rw [h.nv]; exact h.lo)
  obtain ⟨h3, h4⟩ := h.exact.step hK hF S (o := .add e) he' (by intro e' h; cases h) h1
  refine ⟨g', h1, h2, ⟨h3.inv, fun e' => ?_, h3.cnt, h3.above⟩, NoEmptyTree.addEdge hK hF S h.exact.inv h.ne he' h1,
    h4.trans h.nv, h.lo, h.hi⟩
  rw [h3.mem]
  show e' = e ∨ e' ∈ A.E ↔ _
  simp

theorem Holds.faithful (hK : K.Lawful) {g : DK K} {A : SGraph} (h : Holds g A) : g.iface.Faithful (· ∈ A.E) :=
  DK.faithful_of hK h.exact.inv h.exact.above h.ne h.fresh.c0m (by have := h.nv; have := h.lo; omega)
    (by have := h.nv; have := h.hi; omega) h.exact.mem h.exact.cnt

theorem Holds.card {g : DK K} {A : SGraph} (h : Holds g A) : g.nTotal = A.E.card := by
  rw [h.exact.cnt, ← List.toFinset_card_of_nodup h.exact.inv.nodup]
  congr 1
  ext e
  rw [List.mem_toFinset, h.exact.mem]

/-- The header and level files `serialize` leaves in an empty directory. -/
theorem Holds.save {g : DK K} {A : SGraph} (h : Holds g A) (d : Dir K) :
    g.serialize d = .ok ⟨some ⟨g.maxR, g.nv, g.nTotal, g.c0.nVertices, g.c0.maxEdges, g.c0.live⟩, g.writeLevels d⟩ :=
  serialize_ok h.exact.inv.toWInv d h.fresh.c0m

theorem readLevels_written {g : DK K} (hl : g.ks.length = RS) (ha : g.NoneAbove) (hd : Option Hdr) :
    readLevels ⟨hd, g.writeLevels (Dir.empty K)⟩ g.maxR (List.replicate RS none) = g.ks := by
  apply List.ext_getElem?
  intro l
  rw [readLevels_getElem?, List.getElem?_replicate]
  by_cases hlt : l < RS
  · have hlk : l < g.ks.length := by rw [hl]; exact hlt
    rw [if_pos hlt, List.getElem?_eq_getElem hlk]
    simp only [Option.map_some]
    congr 1
    by_cases hle : l ≤ g.maxR
    · rw [if_pos hle]
      simp only [writeLevels, if_pos hle, List.getElem?_eq_getElem hlk]
      cases g.ks[l] <;> rfl
    · rw [if_neg hle]
      cases hg : g.ks[l] with
      | none => rfl
      | some t => exact absurd (ha l t (by rw [List.getElem?_eq_getElem hlk, hg])) hle
  · rw [if_neg hlt, List.getElem?_eq_none (by omega)]
    rfl

/-- Loading what was saved gives a graph that again represents `A`. -/
theorem Holds.load {g : DK K} {A : SGraph} (h : Holds g A) (S : Sizing) {d : Dir K}
    (hs : g.serialize (Dir.empty K) = .ok d) : ∃ g', (DK.blank K).load S d = .ok g' ∧ Holds g' A := by
  rw [h.save] at hs
  cases hs
  obtain ⟨c, a1, a2, a3, a4, a5, a6⟩ := load_ok (S := S) h.exact.inv.toWInv (x := DK.blank K)
    (d := ⟨some ⟨g.maxR, g.nv, g.nTotal, g.c0.nVertices, g.c0.maxEdges, g.c0.live⟩, g.writeLevels (Dir.empty K)⟩)
    (by show (List.replicate RS none).length = RS; simp) h.fresh.c0m rfl
  refine ⟨_, a1, ?_⟩
  have hks : readLevels ⟨some ⟨g.maxR, g.nv, g.nTotal, g.c0.nVertices, g.c0.maxEdges, g.c0.live⟩,
      g.writeLevels (Dir.empty K)⟩ g.maxR (DK.blank K).ks = g.ks :=
    readLevels_written h.exact.inv.len h.exact.above _
  rw [hks]
  have he : DK.edgesOf (⟨g.maxR, g.nv, g.nTotal, c, g.ks⟩ : DK K) = g.edgesOf := by
    unfold DK.edgesOf; simp only [a3]
  refine ⟨⟨a4, h.fresh.trees⟩, ⟨⟨⟨a2, a6.trans h.exact.inv.c0nv, h.exact.inv.len, h.exact.inv.val,
    h.exact.inv.maxR_lt, ?_⟩, ?_⟩, ?_, ?_, h.exact.above⟩, h.ne, h.nv, h.lo, h.hi⟩
  · rw [he]; exact h.exact.inv.range
  · rw [he]; exact h.exact.inv.nodup
  · rw [he]; exact h.exact.mem
  · rw [he]; exact h.exact.cnt

/-! ## Objects in the heap -/

namespace HG

theorem Own.blank (h : Heap K) : Own h blank.ps := own_replicate _ _

theorem view_blank (h : Heap K) : view h blank = DK.blank K := by
  unfold view blank DK.blank vw
  simp

theorem loadLevels_ok (d : Dir K) (m : Nat) : ∀ (ps : List (Option Nat)) (l : Nat) (h : Heap K), Own h ps →
    Keep h (loadLevels d m l h ps).1 ∧ h.length ≤ (loadLevels d m l h ps).1.length ∧
    Own (loadLevels d m l h ps).1 (loadLevels d m l h ps).2 ∧
    (∀ a, some a ∈ (loadLevels d m l h ps).2 → some a ∈ ps ∨ h.length ≤ a) ∧
    vw (loadLevels d m l h ps).1 (loadLevels d m l h ps).2 =
      (vw h ps).mapIdx (fun i o => if l + i ≤ m then (d.kt (l + i)).orElse (fun _ => o) else o) := by
  intro ps
  induction ps with
  | nil => intro l h ho; exact ⟨fun _ _ => rfl, le_rfl, ho, fun a ha => Or.inl ha, rfl⟩
  | cons p ps ih =>
    intro l h ho
    unfold loadLevels
    split
    · rename_i t ht
      obtain ⟨i1, i2, i3, i4, i5⟩ := ih (l + 1) (h ++ [t]) (ho.tail.len (by simp))
      have hlen : (h ++ [t]).length = h.length + 1 := by simp
      have hk : Keep h (loadLevels d m (l + 1) (h ++ [t]) ps).1 := by
        intro a ha
        rw [i1 a (by rw [hlen]; omega), List.getElem?_append_left ha]
      have hnew : (loadLevels d m (l + 1) (h ++ [t]) ps).1[h.length]? = some t := by
        rw [i1 _ (by rw [hlen]; omega)]; simp
      have hnot : some h.length ∉ (loadLevels d m (l + 1) (h ++ [t]) ps).2 := by
        intro hm
        rcases i4 _ hm with h1 | h1
        · exact lt_irrefl _ (ho.tail.lt _ h1)
        · rw [hlen] at h1; omega
      refine ⟨hk, by rw [hlen] at i2; simp only; omega, ⟨?_, ?_⟩, ?_, ?_⟩
      · intro a ha
        rcases List.mem_cons.1 ha with h1 | h1
        · cases h1; rw [hlen] at i2; simp only; omega
        · exact i3.lt a h1
      · simp only [List.filterMap_cons, id]
        refine List.nodup_cons.2 ⟨?_, i3.nodup⟩
        intro hm
        obtain ⟨q, h1, h2⟩ := List.mem_filterMap.1 hm
        have h2 : q = some h.length := h2
        exact hnot (h2 ▸ h1)
      · intro a ha
        rcases List.mem_cons.1 ha with h1 | h1
        · cases h1; exact Or.inr le_rfl
        · rcases i4 a h1 with h2 | h2
          · exact Or.inl (List.mem_cons_of_mem _ h2)
          · rw [hlen] at h2; exact Or.inr (by omega)
      · have hv : vw (h ++ [t]) ps = vw h ps := vw_congr fun a ha => List.getElem?_append_left (ho.tail.lt a ha)
        rw [vw_some hnew, i5, hv]
        have ht' : l ≤ m ∧ d.kt l = some t := by
          by_cases hl : l ≤ m
          · rw [if_pos hl] at ht; exact ⟨hl, ht⟩
          · rw [if_neg hl] at ht; cases ht
        show _ = List.mapIdx _ (_ :: vw h ps)
        rw [List.mapIdx_cons]
        simp only [Nat.add_zero, if_pos ht'.1, ht'.2, Option.orElse]
        congr 2
        funext i o
        rw [show l + 1 + i = l + (i + 1) from by omega]
    · rename_i ht
      obtain ⟨i1, i2, i3, i4, i5⟩ := ih (l + 1) h ho.tail
      refine ⟨i1, i2, ⟨?_, ?_⟩, ?_, ?_⟩
      · intro a ha
        rcases List.mem_cons.1 ha with h1 | h1
        · exact lt_of_lt_of_le (ho.lt a (by rw [h1]; simp)) i2
        · exact i3.lt a h1
      · cases p with
        | none => simpa using i3.nodup
        | some q =>
          simp only [List.filterMap_cons, id]
          refine List.nodup_cons.2 ⟨?_, i3.nodup⟩
          intro hm
          obtain ⟨q', h1, h2⟩ := List.mem_filterMap.1 hm
          have h2 : q' = some q := h2
          rw [h2] at h1
          rcases i4 _ h1 with h3 | h3
          · exact ho.notMem h3
          · have := ho.lt q (by simp); omega
      · intro a ha
        rcases List.mem_cons.1 ha with h1 | h1
        · exact Or.inl (by rw [h1]; simp)
        · rcases i4 a h1 with h2 | h2
          · exact Or.inl (List.mem_cons_of_mem _ h2)
          · exact Or.inr h2
      · have hp : (p.bind fun a => (loadLevels d m (l + 1) h ps).1[a]?) = p.bind fun a => h[a]? := by
          cases p with
          | none => rfl
          | some a => exact i1 a (ho.lt a (by simp))
        show (p.bind fun a => (loadLevels d m (l + 1) h ps).1[a]?) :: vw _ _ = List.mapIdx _ ((p.bind fun a => h[a]?) :: vw h ps)
        rw [hp, i5, List.mapIdx_cons]
        congr 1
        · simp only [Nat.add_zero]
          by_cases hl : l ≤ m
          · rw [if_pos hl] at ht ⊢; rw [ht]; rfl
          · rw [if_neg hl]
        · congr 1
          funext i o
          rw [show l + 1 + i = l + (i + 1) from by omega]

/-- `load` on the heap is `load` on values. -/
theorem load_view (S : Sizing) {h : Heap K} {o : HG} (ho : Own h o.ps) {d : Dir K} {g : DK K}
    (hg : (view h o).load S d = .ok g) :
    ∃ r, load S h o d = .ok r ∧ view r.1 r.2 = g ∧ Own r.1 r.2.ps ∧ Keep h r.1 ∧ h.length ≤ r.1.length := by
  unfold DK.load at hg
  unfold load
  split at hg
  · cases hg
  · rename_i f hf
    rw [hf]
    obtain ⟨c, h1, h2⟩ := Res.bind_eq_ok.1 hg
    simp only [h1, Res.ok_bind]
    have hl : (view h o).ks.length = o.ps.length := by simp [view, vw]
    rw [hl] at h2
    split at h2
    · rename_i hm
      rw [if_pos hm]
      cases h2
      obtain ⟨a1, a2, a3, a4, a5⟩ := loadLevels_ok d f.maxR o.ps 0 h ho
      refine ⟨_, rfl, ?_, a3, a1, a2⟩
      unfold view
      simp only [a5]
      unfold readLevels
      simp
    · cases h2

end HG

/-! ## The program -/

/-- An object in the heap represents `A`. -/
structure HHolds (h : Heap K) (o : HG) (A : SGraph) : Prop where
  own : Own h o.ps
  val : Holds (view h o) A

theorem HHolds.keep {h h' : Heap K} {o : HG} {A : SGraph} (a : HHolds h o A) (hk : Keep h h')
    (hl : h.length ≤ h'.length) : HHolds h' o A := by
  refine ⟨a.own.len hl, ?_⟩
  have : view h' o = view h o := by unfold view; rw [hk.vw a.own.lt]
  rw [this]; exact a.val

/-- The files represent `A`: they are what `serialize` writes for some graph that represents `A`. -/
def DHolds (d : Dir K) (A : SGraph) : Prop := ∃ g : DK K, Holds g A ∧ g.serialize (Dir.empty K) = .ok d

/-- The iterator has the edges `R` still to visit. -/
structure IHolds (h : Heap K) (t : HEIt) (R : Finset Edge) : Prop where
  ok : ItOk h t
  left : ∃ l : List Edge, l.Nodup ∧ (∀ e, e ∈ l ↔ e ∈ R) ∧
    ∀ f, l.length < f → drive DK.eCur DK.eNext f (toVal h t) = .ok l

theorem IHolds.keep {h h' : Heap K} {t : HEIt} {R : Finset Edge} (a : IHolds h t R) (hk : Keep h h')
    (hl : h.length ≤ h'.length) : IHolds h' t R := by
  obtain ⟨h1, h2⟩ := a.ok.keep hk hl
  exact ⟨h1, by rw [h2]; exact a.left⟩

/-- `edge_begin()` returns an iterator over all the edges. -/
theorem HHolds.begin {h : Heap K} {o : HG} {A : SGraph} (a : HHolds h o A) :
    ∃ t, HG.eBegin h o 0 = .ok t ∧ IHolds h t A.E := by
  have hi := a.val.exact.inv
  have hE : slots (view h o).c0 ++ flat K (view h o).ks = (view h o).edgesOf := by
    rw [slots_eq_live hi.c0wf a.val.fresh.c0m]; rfl
  have hall := hi.toWInv.eAll_eq (by have := a.val.nv; have := a.val.lo; omega) a.val.ne (by
    rw [hE]
    intro hc
    have h1 := (hi.range _ hc).1
    have h2 : maxEdge.1 = 9999999 := rfl
    have := a.val.nv; have := a.val.hi
    omega)
  rw [hE] at hall
  have hb := eBegin_rel a.own 0
  obtain ⟨v, hv, _⟩ := Res.bind_eq_ok.1 (hall _ (Nat.lt_succ_self _))
  rw [hv] at hb
  obtain ⟨t, h1, h2, h3⟩ := hb.ok_right
  refine ⟨t, h1, h3, (view h o).edgesOf, hi.nodup, a.val.exact.mem, fun f hf => ?_⟩
  obtain ⟨v', hv', h4⟩ := Res.bind_eq_ok.1 (hall f hf)
  rw [hv] at hv'; cases hv'
  rw [← h2]; exact h4

/-- At the end there is nothing left; otherwise the iterator shows an edge it had left and `++` removes it. -/
theorem IHolds.fetch {h : Heap K} {t : HEIt} {R : Finset Edge} (a : IHolds h t R) :
    (HG.eCur t = none ∧ R = ∅) ∨
    (∃ e t', HG.eCur t = some e ∧ e ∈ R ∧ HG.eNext h t = .ok t' ∧ IHolds h t' (R.erase e)) := by
  obtain ⟨l, h1, h2, h3⟩ := a.left
  have hc : DK.eCur (toVal h t) = HG.eCur t := rfl
  cases l with
  | nil =>
    left
    have h4 := h3 1 (by simp)
    refine ⟨?_, Finset.eq_empty_of_forall_notMem fun e he => by simpa using (h2 e).2 he⟩
    cases hp : HG.eCur t with
    | none => rfl
    | some e =>
      simp only [drive, hc, hp, Res.bind_eq_ok] at h4
      obtain ⟨_, _, _, h5, _⟩ := h4
      cases h5
  | cons e l =>
    right
    have hstep : ∀ f, l.length < f → HG.eCur t = some e ∧
        ∃ v, DK.eNext (toVal h t) = .ok v ∧ drive DK.eCur DK.eNext f v = .ok l := by
      intro f hf
      have h4 := h3 (f + 1) (by simpa using hf)
      simp only [drive, hc] at h4
      cases hp : HG.eCur t with
      | none => rw [hp] at h4; cases h4
      | some e' =>
        rw [hp] at h4
        simp only [Res.bind_eq_ok] at h4
        obtain ⟨v, hv, l', h5, h6⟩ := h4
        cases h6
        exact ⟨rfl, v, hv, h5⟩
    obtain ⟨hcur, v, hv, _⟩ := hstep (l.length + 1) (by omega)
    have hn := eNext_rel a.ok
    rw [hv] at hn
    obtain ⟨t', h5, h6, h7⟩ := hn.ok_right
    refine ⟨e, t', hcur, (h2 e).1 (by simp), h5, h7, l, (List.nodup_cons.1 h1).2, fun e' => ?_, fun f hf => ?_⟩
    · rw [Finset.mem_erase, ← h2, List.mem_cons]
      constructor
      · intro he
        refine ⟨fun hh => ?_, Or.inr he⟩
        subst hh
        exact (List.nodup_cons.1 h1).1 he
      · rintro ⟨h8, h9 | h9⟩
        · exact absurd h9 h8
        · exact h9
    · obtain ⟨_, v', hv', h8⟩ := hstep f hf
      rw [hv] at hv'; cases hv'
      rw [← h6]; exact h8

/-- Every variable, iterator and directory holds what the specification says. -/
structure PState.Sim (w : PState K) (s : SState) : Prop where
  obj : ∀ x A, s.obj x = some A → ∃ o, w.obj x = some o ∧ HHolds w.heap o A
  it : ∀ i R, s.it i = some R → ∃ t, w.it i = some t ∧ IHolds w.heap t R
  dir : ∀ d A, s.dir d = some A → DHolds (w.dir d) A
  free : ∀ d, s.dir d = none → w.dir d = Dir.empty K

theorem PState.Sim.init : (PState.init K).Sim SState.init where
  obj := by intro x A h; cases h
  it := by intro x A h; cases h
  dir := by intro x A h; cases h
  free := by intro d _; rfl

/-- Every legal question gets a right answer. -/
theorem HHolds.ask (hK : K.Lawful) {h : Heap K} {o : HG} {A : SGraph} (a : HHolds h o A) {q : Query}
    (hq : q.Legal A.n) : ∃ r, HG.ask h o q = .ok r ∧ q.Right A r := by
  have hf := a.val.faithful hK
  have hn : (view h o).iface.nodes = A.n := a.val.nv
  have hnv : o.nv = A.n := a.val.nv
  have halg := hf.algorithms
  rw [hn] at halg
  cases q with
  | contains e =>
    obtain ⟨b, h1, h2⟩ := hf.contains e (by rw [hn]; exact hq)
    refine ⟨.bool b, ?_, h2⟩
    have h1 : (view h o).contains e = .ok b := h1
    show (HG.contains h o e >>= fun b => Res.ok (Ans.bool b)) = _
    rw [contains_eq a.own, h1]; rfl
  | numberEdges =>
    refine ⟨_, rfl, ?_⟩
    have := a.val.card
    show ((o.nTotal : Nat) : Int) = _
    exact_mod_cast this
  | numberNodes =>
    refine ⟨_, rfl, ?_⟩
    show ((o.nv : Nat) : Int) = _
    exact_mod_cast hnv
  | neighbours x =>
    obtain ⟨l, h1, h2, h3⟩ := hf.listNb x (by rw [hn]; exact hq)
    refine ⟨.nodes l, ?_, h2, h3⟩
    have h1 : (view h o).listNeighbour x = .ok l := h1
    show (HG.listNeighbour h o x >>= fun l => Res.ok (Ans.nodes l)) = _
    rw [listNeighbour_eq a.own, h1]; rfl
  | neighbourLoop x =>
    obtain ⟨l, h1, h2, h3⟩ := hf.nb x (by rw [hn]; exact hq)
    refine ⟨.nodes l, ?_, h2, h3⟩
    show ((view h o).iface.nb x >>= fun l => Res.ok (Ans.nodes l)) = _
    rw [h1]; rfl
  | edgeLoop =>
    obtain ⟨l, h1, h2, h3⟩ := hf.edges
    refine ⟨.edges l, ?_, h2, h3⟩
    show ((view h o).iface.edges >>= fun l => Res.ok (Ans.edges l)) = _
    rw [h1]; rfl
  | nodeLoop =>
    have h1 := hf.nodeSeq
    rw [hn] at h1
    refine ⟨.nodes (List.range A.n), ?_, rfl⟩
    show ((view h o).iface.nodeSeq >>= fun l => Res.ok (Ans.nodes l)) = _
    rw [h1]; rfl
  | bfs r =>
    obtain ⟨p, h1, h2, h3, h4, h5⟩ := halg.bfs r hq (o.nv + 1) (by omega)
    refine ⟨.nodes p, ?_, h2, h3, h4, h5⟩
    show ((view h o).iface.bfs (o.nv + 1) r >>= fun l => Res.ok (Ans.nodes l)) = _
    rw [h1]; rfl
  | dfs r =>
    obtain ⟨p, h1, h2, h3, h4⟩ := halg.dfs r hq (o.nv + 1) (by omega)
    refine ⟨.nodes p, ?_, h2, h3, h4⟩
    show ((view h o).iface.dfs (o.nv + 1) r >>= fun l => Res.ok (Ans.nodes l)) = _
    rw [h1]; rfl
  | triangles =>
    refine ⟨.num (toInt (countTriples A.n (DirTriangle (· ∈ A.E)))), ?_, ?_⟩
    · show ((view h o).iface.trianglesHash >>= fun l => Res.ok (Ans.num l)) = _
      rw [halg.triangles]; rfl
    · show _ ∧ _ ∧ _
      generalize countTriples A.n (DirTriangle (· ∈ A.E)) = m
      unfold toInt
      split <;> omega

/-- Every legal statement returns, with the expected answer, and takes the state where the user expects. -/
theorem PState.Sim.step (hK : K.Lawful) (hF : K.ForcedPure) {S : Sizing} (hT : S.Top) {w : PState K} {s : SState}
    (h : w.Sim s) {c : Cmd} (hc : s.Legal c) :
    ∃ r, w.step S c = .ok r ∧ s.Right c r.2 ∧ r.1.Sim (s.next c r.2) := by
  have hput : ∀ {h' : Heap K} {x : Nat} {o : HG} {A : SGraph} {dir : Nat → Dir K}, Keep w.heap h' →
      w.heap.length ≤ h'.length → HHolds h' o A → ∀ y B, Function.update s.obj x (some A) y = some B →
      ∃ o', Function.update w.obj x (some o) y = some o' ∧ HHolds h' o' B := by
    intro h' x o A dir hk hl ha y B hy
    by_cases hxy : y = x
    · subst hxy
      rw [Function.update_self] at hy ⊢
      cases hy
      exact ⟨o, rfl, ha⟩
    · rw [Function.update_of_ne hxy] at hy ⊢
      obtain ⟨o', h1, h2⟩ := h.obj y B hy
      exact ⟨o', h1, h2.keep hk hl⟩
  have hits : ∀ {h' : Heap K}, Keep w.heap h' → w.heap.length ≤ h'.length → ∀ i R, s.it i = some R →
      ∃ t, w.it i = some t ∧ IHolds h' t R := by
    intro h' hk hl i R hi
    obtain ⟨t, h1, h2⟩ := h.it i R hi
    exact ⟨t, h1, h2.keep hk hl⟩
  cases c with
  | make x n =>
    obtain ⟨h2, hn⟩ := hc
    have h1 : HG.create S n = .ok ⟨0, n, 0, C0.new S n, List.replicate RS none⟩ := by
      unfold HG.create; rw [if_neg (by omega)]
    refine ⟨({ w with obj := Function.update w.obj x (some ⟨0, n, 0, C0.new S n, List.replicate RS none⟩) }, .unit), by simp only [PState.step, h1, Res.ok_bind], rfl, ?_, h.it, h.dir, h.free⟩
    refine hput (dir := w.dir) (fun _ _ => rfl) le_rfl ⟨own_replicate _ _, ?_⟩
    have : view w.heap ⟨0, n, 0, C0.new S n, List.replicate RS none⟩ = DK.init K S n := by
      unfold view DK.init vw; simp
    rw [this]
    exact Holds.init S h2 hn
  | copy x y =>
    obtain ⟨A, hA⟩ := Option.isSome_iff_exists.1 hc
    obtain ⟨o, h1, h2⟩ := h.obj y A hA
    refine ⟨({ w with obj := Function.update w.obj x (some o) }, .unit), by simp only [PState.step, PState.get, h1, use, Res.ok_bind], rfl, ?_, h.it, h.dir, h.free⟩
    show ∀ y' B, Function.update s.obj x (s.obj y) y' = some B → _
    rw [hA]
    exact hput (dir := w.dir) (fun _ _ => rfl) le_rfl h2
  | add x e =>
    obtain ⟨A, hA, he⟩ := hc
    obtain ⟨o, h1, h2⟩ := h.obj x A hA
    obtain ⟨g', h3, h4⟩ := h2.val.add hK hF hT he
    have hr := addEdge_rel S h2.own e
    rw [h3] at hr
    obtain ⟨r, h5, h6, h7, h8, _⟩ := hr.ok_right
    refine ⟨({ w with heap := r.1, obj := Function.update w.obj x (some r.2) }, .unit), by simp only [PState.step, PState.get, h1, use, Res.ok_bind, h5], rfl, ?_,
      hits (addEdge_keep hF h2.own h5) h8.len, h.dir, h.free⟩
    show ∀ y' B, Function.update s.obj x ((s.obj x).map fun g => ⟨g.n, insert e g.E⟩) y' = some B → _
    rw [hA]
    exact hput (dir := w.dir) (addEdge_keep hF h2.own h5) h8.len ⟨h7, h6 ▸ h4⟩
  | ask x q =>
    obtain ⟨A, hA, hq⟩ := hc
    obtain ⟨o, h1, h2⟩ := h.obj x A hA
    obtain ⟨r, h3, h4⟩ := h2.ask hK hq
    exact ⟨(w, r), by simp only [PState.step, PState.get, h1, use, Res.ok_bind, h3], ⟨A, hA, h4⟩, h⟩
  | begin i x =>
    obtain ⟨A, hA⟩ := Option.isSome_iff_exists.1 hc
    obtain ⟨o, h1, h2⟩ := h.obj x A hA
    obtain ⟨t, h3, h4⟩ := h2.begin
    refine ⟨({ w with it := Function.update w.it i (some t) }, .unit), by simp only [PState.step, PState.get, h1, use, Res.ok_bind, h3],
      rfl, h.obj, ?_, h.dir, h.free⟩
    intro j R hj
    have hj : Function.update s.it i ((s.obj x).map SGraph.E) j = some R := hj
    show ∃ t', Function.update w.it i (some t) j = some t' ∧ _
    by_cases hij : j = i
    · subst hij
      rw [Function.update_self, hA] at hj
      rw [Function.update_self]
      cases hj
      exact ⟨t, rfl, h4⟩
    · rw [Function.update_of_ne hij] at hj ⊢
      exact h.it j R hj
  | fetch i =>
    obtain ⟨R, hR⟩ := Option.isSome_iff_exists.1 hc
    obtain ⟨t, h1, h2⟩ := h.it i R hR
    rcases h2.fetch with ⟨h3, rfl⟩ | ⟨e, t', h3, h4, h5, h6⟩
    · exact ⟨(w, .edge none), by simp only [PState.step, h1, use, Res.ok_bind, h3], hR, h⟩
    · refine ⟨({ w with it := Function.update w.it i (some t') }, .edge (some e)),
        by simp only [PState.step, h1, use, Res.ok_bind, h3, h5], ⟨R, hR, h4⟩, h.obj, ?_, h.dir, h.free⟩
      intro j R' hj
      have hj : Function.update s.it i ((s.it i).map fun R => R.erase e) j = some R' := hj
      show ∃ t', Function.update w.it i (some _) j = some t' ∧ _
      by_cases hij : j = i
      · subst hij
        rw [Function.update_self, hR] at hj
        rw [Function.update_self]
        cases hj
        exact ⟨t', rfl, h6⟩
      · rw [Function.update_of_ne hij] at hj ⊢
        exact h.it j R' hj
  | save x d =>
    obtain ⟨hx, hd⟩ := hc
    obtain ⟨A, hA⟩ := Option.isSome_iff_exists.1 hx
    obtain ⟨o, h1, h2⟩ := h.obj x A hA
    obtain ⟨f, h3⟩ : ∃ f, (view w.heap o).serialize (w.dir d) = .ok f := ⟨_, h2.val.save (w.dir d)⟩
    refine ⟨({ w with dir := Function.update w.dir d f }, .unit), by simp only [PState.step, PState.get, h1, use, Res.ok_bind, h3], rfl, h.obj, h.it, ?_, ?_⟩
    · intro d' B hB
      have hB : Function.update s.dir d (s.obj x) d' = some B := hB
      show DHolds (Function.update w.dir d _ d') B
      by_cases hdd : d' = d
      · subst hdd
        rw [Function.update_self] at hB ⊢
        rw [hA] at hB; cases hB
        refine ⟨_, h2.val, ?_⟩
        rw [h.free _ hd] at h3
        exact h3
      · rw [Function.update_of_ne hdd] at hB ⊢
        exact h.dir d' B hB
    · intro d' hB
      have hB : Function.update s.dir d (s.obj x) d' = none := hB
      show Function.update w.dir d _ d' = _
      by_cases hdd : d' = d
      · subst hdd
        rw [Function.update_self, hA] at hB
        cases hB
      · rw [Function.update_of_ne hdd] at hB ⊢
        exact h.free d' hB
  | load x d clear =>
    obtain ⟨A, hA⟩ := Option.isSome_iff_exists.1 hc
    obtain ⟨g, h1, h2⟩ := h.dir d A hA
    obtain ⟨g', h3, h4⟩ := h1.load S h2
    obtain ⟨r, h5, h6, h7, h8, h9⟩ := load_view S (Own.blank w.heap) (g := g') (d := w.dir d)
      (by rw [view_blank]; exact h3)
    refine ⟨({ w with heap := r.1, obj := Function.update w.obj x (some r.2),
                        dir := if clear then Function.update w.dir d (Dir.empty K) else w.dir }, .unit), by simp only [PState.step, h5, Res.ok_bind], rfl, ?_, hits h8 h9, ?_, ?_⟩
    · show ∀ y' B, Function.update s.obj x (s.dir d) y' = some B → _
      rw [hA]
      exact hput (dir := w.dir) h8 h9 ⟨h7, h6 ▸ h4⟩
    · intro d' B hB
      cases clear with
      | false => exact h.dir d' B hB
      | true =>
        have hB : Function.update s.dir d none d' = some B := hB
        show DHolds (Function.update w.dir d _ d') B
        by_cases hdd : d' = d
        · subst hdd
          rw [Function.update_self] at hB; cases hB
        · rw [Function.update_of_ne hdd] at hB ⊢
          exact h.dir d' B hB
    · intro d' hB
      cases clear with
      | false => exact h.free d' hB
      | true =>
        have hB : Function.update s.dir d none d' = none := hB
        show Function.update w.dir d _ d' = _
        by_cases hdd : d' = d
        · subst hdd
          rw [Function.update_self]
        · rw [Function.update_of_ne hdd] at hB ⊢
          exact h.free d' hB

theorem PState.Sim.run (hK : K.Lawful) (hF : K.ForcedPure) {S : Sizing} (hT : S.Top) : ∀ (p : UProg) {w : PState K}
    {s : SState}, w.Sim s → p.Legal s →
    ∃ w' tr, w.run S p = .ok (w', tr) ∧ s.RightAll tr ∧ w'.Sim (s.run tr) := by
  intro p
  induction p with
  | done => intro w s h _; exact ⟨w, [], rfl, trivial, h⟩
  | cmd c k ih =>
    intro w s h hl
    obtain ⟨r, h1, h2, h3⟩ := h.step hK hF hT hl.1
    obtain ⟨w', tr, h4, h5, h6⟩ := ih r.2 h3 (hl.2 _ h2)
    refine ⟨w', (c, r.2) :: tr, ?_, ⟨h2, h5⟩, h6⟩
    unfold PState.run
    rw [h1, Res.ok_bind, h4]
    rfl

/-! ## C86 -/

/-- C86: every legal program runs to its end and every statement gives an expected answer: graphs built by insertions,
copied, assigned, saved into empty directories, loaded (with or without clearing) and used further behave as sets of edges that
share nothing, and iterators as snapshots of them. -/
theorem C86_program (hK : K.Lawful) (hF : K.ForcedPure) (p : UProg) (hp : p.Legal SState.init) :
    ∃ w tr, (PState.init K).run realSizing p = .ok (w, tr) ∧ SState.init.RightAll tr := by
  obtain ⟨w, tr, h1, h2, _⟩ := PState.Sim.run hK hF realSizing_top p PState.Sim.init hp
  exact ⟨w, tr, h1, h2⟩

/-- Graphs that compare equal represent the same graph. -/
theorem Holds.of_eq (hK : K.Lawful) (Q : K2Eq K) {g g' : DK K} {A B : SGraph} (a : Holds g A) (b : Holds g' B)
    (h : g.eq Q g' = .ok true) : A = B := by
  obtain ⟨h1, h2, h3, h4, h5⟩ := DK.eq_true h
  have hl := C0.eq_live h4
  have hn : A.n = B.n := by rw [← a.nv, ← b.nv, h2]
  have hin : ∀ {g : DK K} {A : SGraph}, Holds g A → ∀ e, e ∈ A.E → InRange A.n e := by
    intro g A a e he
    have := a.exact.inv.range e ((a.exact.mem e).2 he)
    rw [a.nv] at this
    exact this
  have key : ∀ e, InRange A.n e → (e ∈ A.E ↔ e ∈ B.E) := by
    intro e he
    have c1 := a.exact.inv.contains_eq hK (e := e) (by rw [a.nv]; exact he)
    have c2 := b.exact.inv.contains_eq hK (e := e) (by rw [b.nv, ← hn]; exact he)
    have c3 : g'.contains e = g.contains e := by
      unfold DK.contains
      rw [a.exact.inv.c0wf.contains_eq, b.exact.inv.c0wf.contains_eq, hl, ← treesContain_take a.exact.above,
        ← treesContain_take b.exact.above, ← h1, levelsEq_contains Q e h5]
    rw [c1, c2] at c3
    have c4 := Res.ok.inj c3
    rw [← a.exact.mem e, ← b.exact.mem e]
    simpa [eq_comm] using c4.symm
  obtain ⟨n, E⟩ := A
  obtain ⟨m, F⟩ := B
  simp only at hn key
  subst hn
  congr 1
  ext e
  constructor
  · intro he; exact (key e (hin a e he)).1 he
  · intro he; exact (key e (hin b e he)).2 he

/-- C86, comparisons: after a legal program, variables the specification gives a graph are constructed; one always compares
equal to itself, and two that compare equal hold the same graph. -/
theorem C86_equal (hK : K.Lawful) (hF : K.ForcedPure) (Q : K2Eq K) (p : UProg) (hp : p.Legal SState.init) :
    ∃ w tr, (PState.init K).run realSizing p = .ok (w, tr) ∧ SState.init.RightAll tr ∧
      ∀ x y A B, (SState.init.run tr).obj x = some A → (SState.init.run tr).obj y = some B →
        ∃ o o', w.obj x = some o ∧ w.obj y = some o' ∧
          (view w.heap o).eq Q (view w.heap o) = .ok true ∧
          ((view w.heap o).eq Q (view w.heap o') = .ok true → A = B) := by
  obtain ⟨w, tr, h1, h2, h3⟩ := PState.Sim.run hK hF realSizing_top p PState.Sim.init hp
  refine ⟨w, tr, h1, h2, fun x y A B hx hy => ?_⟩
  obtain ⟨o, a1, a2⟩ := h3.obj x A hx
  obtain ⟨o', b1, b2⟩ := h3.obj y B hy
  refine ⟨o, o', a1, b1, eq_of rfl rfl rfl (C0.eq_self a2.val.exact.inv.c0wf) (levelsEq_self Q _), fun h => ?_⟩
  exact a2.val.of_eq hK Q b2.val h

/-! ## Programs that meet the hypotheses -/

/-- Adds the reverse of every edge of variable 0 while iterating over its edges, then lists the edges. -/
def progSym : Nat → UProg
  | 0 => .done
  | f + 1 => .cmd (.fetch 0) fun a =>
    match a with
    | .edge (some e) => .cmd (.add 0 (e.2, e.1)) fun _ => progSym f
    | _ => .cmd (.ask 0 .edgeLoop) fun _ => .done

theorem progSym_legal {n : Nat} : ∀ (f : Nat) {s : SState} {E R : Finset Edge}, s.obj 0 = some ⟨n, E⟩ → s.it 0 = some R →
    (∀ e ∈ R, InRange n e) → (progSym f).Legal s := by
  intro f
  induction f with
  | zero => intro s E R _ _ _; trivial
  | succ f ih =>
    intro s E R hE hR hin
    refine ⟨by show (s.it 0).isSome = true; rw [hR]; rfl, fun a ha => ?_⟩
    have hask : ∀ {t : SState}, t.obj 0 = some ⟨n, E⟩ → (UProg.cmd (.ask 0 .edgeLoop) fun _ => UProg.done).Legal t :=
      fun h => ⟨⟨_, h, trivial⟩, fun _ _ => trivial⟩
    cases a with
    | edge o =>
      cases o with
      | none => exact hask hE
      | some e =>
        obtain ⟨R', h1, h2⟩ := ha
        rw [hR] at h1; cases h1
        have he := hin e h2
        refine ⟨⟨⟨n, E⟩, hE, he.2, he.1⟩, fun b _ => ?_⟩
        refine ih (E := insert (e.2, e.1) E) (R := R.erase e) ?_ ?_ (fun e' he' => hin e' (Finset.mem_of_mem_erase he'))
        · show Function.update s.obj 0 ((s.obj 0).map _) 0 = _
          rw [Function.update_self, hE]; rfl
        · show Function.update s.it 0 ((s.it 0).map _) 0 = _
          rw [Function.update_self, hR]; rfl
    | _ => exact hask hE

/-- A program that flushes the buffer, copies, saves, changes the original, loads back with clearing, compares the three by
questions, and then symmetrises one of them while iterating over it. -/
def progDemo (f : Nat) : UProg :=
  [Cmd.make 0 4, .add 0 (0, 1), .add 0 (1, 2), .add 0 (2, 3), .copy 1 0, .save 0 7, .add 0 (3, 0), .add 1 (3, 3),
    .load 2 7 true, .add 2 (2, 2), .save 2 7, .ask 0 (.contains (3, 3)), .ask 1 (.contains (3, 0)), .ask 2 .numberEdges,
    .ask 0 .triangles, .begin 0 0].foldr (fun c p => .cmd c fun _ => p) (progSym f)

/-- The hypothesis of `C86_program` and `C86_equal` is met. -/
theorem progDemo_legal (f : Nat) : (progDemo f).Legal SState.init := by
  have hs : ∀ s : SState, s.obj 0 = some ⟨4, {(3, 0), (2, 3), (1, 2), (0, 1)}⟩ →
      s.it 0 = some {(3, 0), (2, 3), (1, 2), (0, 1)} → (progSym f).Legal s :=
    fun s h1 h2 => progSym_legal f h1 h2 (by decide)
  simp only [progDemo, List.foldr, UProg.Legal, SState.Legal, SState.next]
  refine ⟨by decide, fun _ _ => ⟨⟨_, rfl, by decide⟩, fun _ _ => ⟨⟨_, rfl, by decide⟩, fun _ _ => ⟨⟨_, rfl, by decide⟩, fun _ _ =>
    ⟨rfl, fun _ _ => ⟨⟨rfl, rfl⟩, fun _ _ => ⟨⟨_, rfl, by decide⟩, fun _ _ => ⟨⟨_, rfl, by decide⟩, fun _ _ => ⟨rfl, fun _ _ =>
    ⟨⟨_, rfl, by decide⟩, fun _ _ => ⟨⟨rfl, rfl⟩, fun _ _ =>
    ⟨⟨_, rfl, (by decide : InRange 4 (3, 3))⟩, fun _ _ => ⟨⟨_, rfl, (by decide : InRange 4 (3, 0))⟩, fun _ _ =>
    ⟨⟨_, rfl, trivial⟩, fun _ _ => ⟨⟨_, rfl, trivial⟩, fun _ _ => ⟨rfl, fun _ _ => hs _ rfl rfl⟩⟩⟩⟩⟩⟩⟩⟩⟩⟩⟩⟩⟩⟩⟩⟩

/-- So the program of `progDemo` runs, for any tree implementation, and its answers are the expected ones. -/
example (hK : K.Lawful) (hF : K.ForcedPure) (f : Nat) :
    ∃ w tr, (PState.init K).run realSizing (progDemo f) = .ok (w, tr) ∧ SState.init.RightAll tr :=
  C86_program hK hF _ (progDemo_legal f)

end DK2
