import Verif.Ser
import Verif.Weak
/-!
# Proofs about serialization and equality
-/

namespace DK2

instance : LawfulMonad Res := LawfulMonad.mk' Res
  (id_map := fun x => by cases x <;> rfl) (pure_bind := fun _ _ => rfl)
  (bind_assoc := fun x _ _ => by cases x <;> rfl)

namespace C0

theorem mapM_ok {α β : Type} {f : α → Res β} {g : α → β} {l : List α} (h : ∀ a ∈ l, f a = .ok (g a)) :
    l.mapM f = .ok (l.map g) := by
  induction l with
  | nil => rfl
  | cons a l ih =>
    rw [List.mapM_cons, h a (by simp), ih (fun b hb => h b (by simp [hb]))]
    rfl

theorem mapM_ub {α β : Type} {f : α → Res β} {l : List α} (h : ∀ a ∈ l, (∃ b, f a = .ok b) ∨ f a = .ub)
    (hu : ∃ a ∈ l, f a = .ub) : l.mapM f = .ub := by
  induction l with
  | nil => simp at hu
  | cons a l ih =>
    rw [List.mapM_cons]
    rcases h a (by simp) with ⟨b, hb⟩ | hb
    · rw [hb]
      have : l.mapM f = .ub := by
        apply ih (fun c hc => h c (by simp [hc]))
        obtain ⟨c, hc, hcu⟩ := hu
        rcases List.mem_cons.1 hc with rfl | hc
        · rw [hb] at hcu; cases hcu
        · exact ⟨c, hc, hcu⟩
      rw [this]; rfl
    · rw [hb]; rfl

theorem blank_wf (nv me : Nat) : (blank nv me).WF := new_wf ⟨fun _ _ => me, fun _ _ => false⟩ nv

theorem blank_live (nv me : Nat) : (blank nv me).live = [] := by
  unfold live; rw [liveSlots_zero rfl]; rfl

theorem WF.saveEdges_eq {c : C0} (h : c.WF) : c.saveEdges =
    .ok ((List.range c.nElements).map (fun i => if c.isLive i then some (c.slotEdge i) else none)) := by
  apply mapM_ok
  intro i hi
  have hi := List.mem_range.1 hi
  unfold saveSlot
  rcases h.ef_lo i hi with h1 | h1
  · rw [rd_of h1]
    simp only [Res.ok_bind]
    rw [rd_of (h.en_lo i hi), if_pos (by unfold isLive; simp [h1])]
  · rw [rd_of h1]
    simp only [Res.ok_bind]
    rw [if_neg (by unfold isLive; simp [h1])]

theorem WF.marked_zero {c : C0} (h : c.WF) (hm : c.marked = 0) : c.liveSlots = List.range c.nElements := by
  have h1 := h.marked_eq
  rw [hm] at h1
  unfold liveSlots at h1 ⊢
  rw [List.filter_eq_self]
  have h2 : ((List.range c.nElements).filter c.isLive).length = (List.range c.nElements).length := by
    rw [List.length_range]; omega
  exact List.length_filter_eq_length_iff.1 h2

theorem WF.marked_pos {c : C0} (h : c.WF) (hm : c.marked ≠ 0) : ∃ i, i < c.nElements ∧ c.isLive i = false := by
  by_contra hne
  have : c.liveSlots = List.range c.nElements := by
    unfold liveSlots
    rw [List.filter_eq_self]
    intro i hi
    by_contra hl
    exact hne ⟨i, List.mem_range.1 hi, by simpa using hl⟩
  have h1 := h.marked_eq
  rw [this, List.length_range] at h1
  omega

/-- Insertion with room for the slot in the present vectors. -/
theorem insert_fits {S : Sizing} {c : C0} (h : c.WF) {e : Edge} {m : Nat} (hr : c.nElements < c.maxEdges) :
    ∃ c', c.insert S e m = .ok c' ∧ c'.WF ∧ c'.live = (if e ∈ c.live then c.live else c.live ++ [e]) ∧
      c'.nElements ≤ c.nElements + 1 ∧ c'.marked = c.marked ∧ c'.maxEdges = c.maxEdges ∧
      c'.nVertices = c.nVertices := by
  by_cases he : e ∈ c.live
  · exact ⟨c, insert_present h he, h, by rw [if_pos he], by omega, rfl, rfl, rfl⟩
  · have he' := h.not_mem_live.1 he
    obtain ⟨c', a1, a2, a3, a4, a5, a6, a7⟩ := h.insertSlot_ok he' hr
    refine ⟨c', ?_, a2, by rw [if_neg he, a3], by omega, a5, a6, a7⟩
    simp only [insert, he', Option.isSome_none, Bool.false_eq_true, if_false]
    rw [if_neg (by rw [h.len_el]; omega)]
    exact a1

theorem insertAll_ok {S : Sizing} : ∀ {es : List Edge} {c : C0}, c.WF → c.nElements + es.length ≤ c.maxEdges →
    ∃ c', insertAll S c es = .ok c' ∧ c'.WF ∧ (∀ e, e ∈ c'.live ↔ e ∈ c.live ∨ e ∈ es) ∧
      c'.marked = c.marked ∧ c'.maxEdges = c.maxEdges ∧ c'.nVertices = c.nVertices ∧
      ((c.live ++ es).Nodup → c'.live = c.live ++ es)
  | [], c, h, _ => ⟨c, rfl, h, by simp, rfl, rfl, rfl, by simp⟩
  | e :: es, c, h, hr => by
    simp only [List.length_cons] at hr
    obtain ⟨c1, a1, a2, a3, a4, a5, a6, a7⟩ := insert_fits (S := S) h (e := e) (m := c.nElements) (by omega)
    obtain ⟨c2, b1, b2, b3, b4, b5, b6, b7⟩ := insertAll_ok (S := S) (es := es) a2 (by rw [a6]; omega)
    refine ⟨c2, ?_, b2, ?_, by rw [b4, a5], by rw [b5, a6], by rw [b6, a7], ?_⟩
    · unfold insertAll; rw [a1]; exact b1
    · intro e'
      rw [b3, a3]
      by_cases he : e ∈ c.live
      · rw [if_pos he]
        simp only [List.mem_cons]
        constructor
        · rintro (h | h) <;> simp [h]
        · rintro (h | rfl | h)
          · exact Or.inl h
          · exact Or.inl he
          · exact Or.inr h
      · rw [if_neg he]; simp [or_assoc]
    · intro hnd
      have he : e ∉ c.live := by
        intro he
        have := List.nodup_append.1 hnd
        exact this.2.2 e he e (by simp) rfl
      rw [if_neg he] at a3
      rw [b7 (by rw [a3]; simpa using hnd), a3]; simp

/-! ## operator== -/

theorem eqNodes_true {a b : C0} : ∀ {is : List Nat}, eqNodes a b is = .ok true →
    ∀ i ∈ is, a.elementsNodes[i]? = b.elementsNodes[i]?
  | [], _ => by simp
  | i :: is, h => by
    unfold eqNodes at h
    obtain ⟨oa, h1, h⟩ := Res.bind_eq_ok.1 h
    obtain ⟨ea, h2, h⟩ := Res.bind_eq_ok.1 h
    obtain ⟨ob, h3, h⟩ := Res.bind_eq_ok.1 h
    obtain ⟨eb, h4, h⟩ := Res.bind_eq_ok.1 h
    obtain ⟨r, h5, h⟩ := Res.bind_eq_ok.1 h
    have h6 := Res.ok.inj h
    rw [Bool.and_eq_true, decide_eq_true_eq] at h6
    obtain ⟨h6, rfl⟩ := h6
    rw [rd_eq_ok] at h1 h3
    rw [use_eq_ok] at h2 h4
    intro j hj
    rcases List.mem_cons.1 hj with rfl | hj
    · rw [h1, h3, h2, h4, h6]
    · exact eqNodes_true h5 j hj

theorem eqNodes_ok {a b : C0} {f g : Nat → Edge} : ∀ {is : List Nat},
    (∀ i ∈ is, a.elementsNodes[i]? = some (some (f i))) → (∀ i ∈ is, b.elementsNodes[i]? = some (some (g i))) →
    eqNodes a b is = .ok (decide (∀ i ∈ is, f i = g i))
  | [], _, _ => by simp [eqNodes]
  | i :: is, ha, hb => by
    unfold eqNodes
    rw [rd_of (ha i (by simp)), rd_of (hb i (by simp)),
      eqNodes_ok (fun j hj => ha j (by simp [hj])) (fun j hj => hb j (by simp [hj]))]
    simp only [use, Res.ok_bind]
    congr 1
    rw [Bool.eq_iff_iff]
    simp

theorem eq_true {a b : C0} (h : a.eq b = .ok true) :
    a.nElements = b.nElements ∧ a.maxEdges = b.maxEdges ∧ a.nVertices = b.nVertices ∧
    (∀ i, i < a.nElements → a.elementsNodes[i]? = b.elementsNodes[i]?) ∧ a.edgeFree = b.edgeFree := by
  unfold eq at h
  obtain ⟨r, h1, h⟩ := Res.bind_eq_ok.1 h
  have h2 := Res.ok.inj h
  simp only [Bool.and_eq_true, decide_eq_true_eq] at h2
  obtain ⟨⟨⟨⟨⟨⟨⟨h3, h4⟩, h5⟩, h6⟩, h7⟩, h8⟩, rfl⟩, h9⟩ := h2
  exact ⟨h3, h4, h5, fun i hi => eqNodes_true h1 i (List.mem_range.2 hi), h9⟩

theorem eq_live {a b : C0} (h : a.eq b = .ok true) : a.live = b.live := by
  obtain ⟨h1, _, _, h4, h5⟩ := eq_true h
  unfold live liveSlots
  have e1 : a.isLive = b.isLive := by funext i; unfold isLive; rw [h5]
  rw [e1, ← h1]
  apply List.map_congr_left
  intro i hi
  have hi := List.mem_range.1 (List.mem_filter.1 hi).1
  unfold slotEdge
  rw [h4 i hi]

/-- The buffers are compared without leaving the vectors when the right one holds at least as many slots. -/
theorem eq_returns {a b : C0} (ha : a.WF) (hb : b.WF) (h : a.nElements ≤ b.nElements) :
    ∃ r, a.eq b = .ok r := by
  unfold eq
  rw [eqNodes_ok (fun i hi => ha.en_lo i (List.mem_range.1 hi))
    (fun i hi => hb.en_lo i (by have := List.mem_range.1 hi; omega))]
  exact ⟨_, rfl⟩

theorem WF.edgeFree_ext {a b : C0} (ha : a.WF) (hb : b.WF) (hm : a.maxEdges = b.maxEdges)
    (hn : a.nElements = b.nElements) (hl : a.liveSlots = b.liveSlots) : a.edgeFree = b.edgeFree := by
  apply List.ext_getElem?
  intro i
  by_cases hi : i < a.maxEdges
  · by_cases hin : i < a.nElements
    · by_cases hv : i ∈ a.liveSlots
      · rw [(mem_liveSlots.1 hv).2, (mem_liveSlots.1 (hl ▸ hv)).2]
      · have h1 := (ha.ef_lo i hin).resolve_left (fun h => hv (mem_liveSlots.2 ⟨hin, h⟩))
        have h2 := (hb.ef_lo i (hn ▸ hin)).resolve_left (fun h => hv (hl ▸ mem_liveSlots.2 ⟨hn ▸ hin, h⟩))
        rw [h1, h2]
    · rw [ha.ef_hi i (by omega) hi, hb.ef_hi i (by omega) (by omega)]
  · rw [List.getElem?_eq_none (by rw [ha.len_ef]; omega), List.getElem?_eq_none (by rw [hb.len_ef]; omega)]

/-- Containers with the same slots compare equal: `operator==` looks at nothing else. -/
theorem eq_of_slots {a b : C0} (ha : a.WF) (hb : b.WF) (hm : a.maxEdges = b.maxEdges)
    (hn : a.nElements = b.nElements) (hv : a.nVertices = b.nVertices) (hl : a.liveSlots = b.liveSlots)
    (he : ∀ i, i < a.nElements → a.slotEdge i = b.slotEdge i) : a.eq b = .ok true := by
  have hse : ∀ i ∈ a.liveSlots, a.slotEdge i = b.slotEdge i :=
    fun i hi => he i (mem_liveSlots.1 hi).1
  have h1 : a.edgeLst = b.edgeLst := by
    funext e
    apply Option.ext
    intro i
    show a.edgeLst e = some i ↔ b.edgeLst e = some i
    rw [ha.lst, hb.lst, ← hl]
    constructor
    · rintro ⟨h1, h2⟩; exact ⟨h1, by rw [← hse i h1]; exact h2⟩
    · rintro ⟨h1, h2⟩; exact ⟨h1, by rw [hse i h1]; exact h2⟩
  have h2 : a.adjMap = b.adjMap := by
    funext x
    rw [ha.adj_head, hb.adj_head]
    unfold slotsOf
    rw [← hl]
    congr 2
    apply List.filter_congr
    intro i hi
    rw [hse i hi]
  unfold eq
  rw [eqNodes_ok (fun i hi => ha.en_lo i (List.mem_range.1 hi))
    (fun i hi => hb.en_lo i (by have := List.mem_range.1 hi; omega))]
  simp only [Res.ok_bind]
  have h3 : ∀ i ∈ List.range a.nElements, a.slotEdge i = b.slotEdge i := fun i hi => he i (List.mem_range.1 hi)
  simp [hn, hm, hv, h1, h2, ha.len_en, hb.len_en, ha.edgeFree_ext hb hm hn hl]
  intro i hi
  exact he i (by omega)

theorem eq_self {a : C0} (ha : a.WF) : a.eq a = .ok true :=
  eq_of_slots ha ha rfl rfl rfl rfl (fun _ _ => rfl)

/-- Without erased slots the content determines the slots. -/
theorem eq_of_live {a b : C0} (ha : a.WF) (hb : b.WF) (hma : a.marked = 0) (hmb : b.marked = 0)
    (hm : a.maxEdges = b.maxEdges) (hv : a.nVertices = b.nVertices) (hl : a.live = b.live) :
    a.eq b = .ok true := by
  have la := ha.marked_zero hma
  have lb := hb.marked_zero hmb
  have hn : a.nElements = b.nElements := by
    have := congrArg List.length hl
    unfold live at this
    rw [la, lb] at this
    simpa using this
  apply eq_of_slots ha hb hm hn hv (by rw [la, lb, hn])
  intro i hi
  have : a.live[i]? = b.live[i]? := by rw [hl]
  unfold live at this
  rw [la, lb] at this
  simp [hi, ← hn] at this
  exact this

end C0

namespace DK
variable {K : K2Impl}

theorem serializeWith_ok {g : DK K} (hw : g.WInv) (junk : Nat → Option Edge) (d : Dir K)
    (hj : ∀ i, i < g.c0.nElements → g.c0.isLive i = false → (junk i).isSome) :
    g.serializeWith junk d = .ok ⟨some ⟨g.maxR, g.nv, g.nTotal, g.c0.nVertices, g.c0.maxEdges,
      (List.range g.c0.nElements).map (fun i => if g.c0.isLive i then g.c0.slotEdge i else (junk i).getD (0, 0))⟩,
      g.writeLevels d⟩ := by
  unfold serializeWith
  rw [hw.c0wf.saveEdges_eq]
  simp only [Res.ok_bind]
  have : (List.mapIdx (fun i (o : Option Edge) => o.orElse (fun _ => junk i))
      ((List.range g.c0.nElements).map (fun i => if g.c0.isLive i then some (g.c0.slotEdge i) else none))).mapM use
      = .ok ((List.range g.c0.nElements).map
        (fun i => if g.c0.isLive i then g.c0.slotEdge i else (junk i).getD (0, 0))) := by
    have e1 : List.mapIdx (fun i (o : Option Edge) => o.orElse (fun _ => junk i))
      ((List.range g.c0.nElements).map (fun i => if g.c0.isLive i then some (g.c0.slotEdge i) else none)) =
      (List.range g.c0.nElements).map
        (fun i => some (if g.c0.isLive i then g.c0.slotEdge i else (junk i).getD (0, 0))) := by
      apply List.ext_getElem?
      intro i
      by_cases hi : i < g.c0.nElements
      · simp only [List.getElem?_mapIdx, List.getElem?_map, List.getElem?_range hi, Option.map_some]
        congr 1
        by_cases hl : g.c0.isLive i
        · simp [hl]
        · have := hj i hi (by simpa using hl)
          cases hji : junk i with
          | none => rw [hji] at this; simp at this
          | some v => simp [hl]
      · rw [List.getElem?_eq_none (by simp; omega), List.getElem?_eq_none (by simp; omega)]
    rw [e1]
    rw [C0.mapM_ok (g := fun o => o.getD (0, 0))]
    · simp
    · intro o ho
      obtain ⟨i, _, rfl⟩ := List.mem_map.1 ho
      rfl
  rw [this]
  rfl

/-- `serialize` with the standard's reading of the indeterminate edges. -/
theorem serialize_ub_iff {g : DK K} (hw : g.WInv) (d : Dir K) : g.serialize d = .ub ↔ g.c0.marked ≠ 0 := by
  constructor
  · intro h hm
    have := serializeWith_ok hw (fun _ => none) d (by
      intro i hi hl
      have h1 := hw.c0wf.marked_zero hm
      have : i ∈ g.c0.liveSlots := by rw [h1]; exact List.mem_range.2 hi
      unfold C0.liveSlots at this
      rw [(List.mem_filter.1 this).2] at hl
      cases hl)
    unfold serialize at h
    rw [this] at h
    cases h
  · intro hm
    obtain ⟨i, hi, hl⟩ := hw.c0wf.marked_pos hm
    unfold serialize serializeWith
    rw [hw.c0wf.saveEdges_eq]
    simp only [Res.ok_bind]
    rw [C0.mapM_ub]
    · rfl
    · intro o _
      cases o with
      | none => exact Or.inr rfl
      | some e => exact Or.inl ⟨e, rfl⟩
    · refine ⟨none, ?_, rfl⟩
      rw [List.mem_iff_getElem?]
      refine ⟨i, ?_⟩
      rw [List.getElem?_mapIdx, List.getElem?_map, List.getElem?_range hi]
      simp [hl]

theorem serialize_ok {g : DK K} (hw : g.WInv) (d : Dir K) (hm : g.c0.marked = 0) :
    g.serialize d = .ok ⟨some ⟨g.maxR, g.nv, g.nTotal, g.c0.nVertices, g.c0.maxEdges, g.c0.live⟩,
      g.writeLevels d⟩ := by
  have h1 := hw.c0wf.marked_zero hm
  have hl : ∀ i, i < g.c0.nElements → g.c0.isLive i = true := by
    intro i hi
    have : i ∈ g.c0.liveSlots := by rw [h1]; exact List.mem_range.2 hi
    unfold C0.liveSlots at this
    exact (List.mem_filter.1 this).2
  unfold serialize
  rw [serializeWith_ok hw (fun _ => none) d (by intro i hi h; rw [hl i hi] at h; cases h)]
  congr 4
  unfold C0.live
  rw [h1]
  apply List.map_congr_left
  intro i hi
  rw [if_pos (hl i (List.mem_range.1 hi))]

/-- Level `l` of the loaded graph. -/
theorem readLevels_getElem? (d : Dir K) (r : Nat) (ks : List (Option K.T)) (l : Nat) :
    (readLevels d r ks)[l]? = (ks[l]?).map (fun o => if l ≤ r then (d.kt l).orElse (fun _ => o) else o) := by
  unfold readLevels
  rw [List.getElem?_mapIdx]

theorem load_ok {S : Sizing} {g : DK K} (hw : g.WInv) {d : Dir K} {x : DK K} (hx : x.ks.length = RS)
    (hm : g.c0.marked = 0) (hd : d.hdr = some ⟨g.maxR, g.nv, g.nTotal, g.c0.nVertices, g.c0.maxEdges, g.c0.live⟩) :
    ∃ c, x.load S d = .ok ⟨g.maxR, g.nv, g.nTotal, c, readLevels d g.maxR x.ks⟩ ∧ c.WF ∧ c.live = g.c0.live ∧
      c.marked = 0 ∧ c.maxEdges = g.c0.maxEdges ∧ c.nVertices = g.c0.nVertices := by
  obtain ⟨c, a1, a2, a3, a4, a5, a6, a7⟩ := C0.insertAll_ok (S := S) (es := g.c0.live)
    (C0.blank_wf g.c0.nVertices g.c0.maxEdges) (by
      show 0 + _ ≤ g.c0.maxEdges
      have h1 := hw.c0wf.marked_eq
      have h2 := hw.c0wf.live_length
      have h3 := hw.c0wf.n_le
      omega)
  refine ⟨c, ?_, a2, ?_, a4, a5, a6⟩
  · unfold load
    rw [hd]
    simp only [a1, Res.ok_bind]
    rw [if_pos (by rw [hx]; exact hw.maxR_lt)]
  · rw [a7 (by rw [C0.blank_live]; simpa using hw.c0wf.live_nodup), C0.blank_live]; rfl

theorem levelsEq_self (E : K2Eq K) : ∀ l : List (Option K.T), levelsEq E l l = true
  | [] => rfl
  | none :: l => by unfold levelsEq; exact levelsEq_self E l
  | some t :: l => by unfold levelsEq; rw [E.refl, levelsEq_self E l]; rfl

theorem levelsEq_neigh (E : K2Eq K) (x : Nat) : ∀ {a b : List (Option K.T)}, levelsEq E a b = true →
    treesNeigh K x a = treesNeigh K x b
  | [], [], _ => rfl
  | none :: a, none :: b, h => by
    unfold levelsEq at h; unfold treesNeigh; exact levelsEq_neigh E x h
  | some t :: a, some u :: b, h => by
    unfold levelsEq at h
    rw [Bool.and_eq_true] at h
    unfold treesNeigh
    rw [E.neigh_eq t u x h.1, levelsEq_neigh E x h.2]
  | [], _ :: _, h => by unfold levelsEq at h; cases h
  | none :: _, [], h => by unfold levelsEq at h; cases h
  | some _ :: _, [], h => by unfold levelsEq at h; cases h
  | none :: _, some _ :: _, h => by unfold levelsEq at h; cases h
  | some _ :: _, none :: _, h => by unfold levelsEq at h; cases h

theorem levelsEq_contains (E : K2Eq K) (e : Edge) : ∀ {a b : List (Option K.T)}, levelsEq E a b = true →
    treesContain K e a = treesContain K e b
  | [], [], _ => rfl
  | none :: a, none :: b, h => by
    unfold levelsEq at h; unfold treesContain; exact levelsEq_contains E e h
  | some t :: a, some u :: b, h => by
    unfold levelsEq at h
    rw [Bool.and_eq_true] at h
    unfold treesContain
    rw [E.adj_eq t u e h.1, levelsEq_contains E e h.2]
  | [], _ :: _, h => by unfold levelsEq at h; cases h
  | none :: _, [], h => by unfold levelsEq at h; cases h
  | some _ :: _, [], h => by unfold levelsEq at h; cases h
  | none :: _, some _ :: _, h => by unfold levelsEq at h; cases h
  | some _ :: _, none :: _, h => by unfold levelsEq at h; cases h

theorem eq_true {E : K2Eq K} {a b : DK K} (h : a.eq E b = .ok true) :
    a.maxR = b.maxR ∧ a.nv = b.nv ∧ a.nTotal = b.nTotal ∧ a.c0.eq b.c0 = .ok true ∧
      levelsEq E (a.ks.take (a.maxR + 1)) (b.ks.take (a.maxR + 1)) = true := by
  unfold eq at h
  obtain ⟨r, h1, h⟩ := Res.bind_eq_ok.1 h
  have h2 := Res.ok.inj h
  simp only [Bool.and_eq_true, decide_eq_true_eq] at h2
  obtain ⟨⟨⟨⟨h3, h4⟩, h5⟩, rfl⟩, h7⟩ := h2
  exact ⟨h3, h4, h5, h1, h7⟩

theorem eq_of {E : K2Eq K} {a b : DK K} (h1 : a.maxR = b.maxR) (h2 : a.nv = b.nv) (h3 : a.nTotal = b.nTotal)
    (h4 : a.c0.eq b.c0 = .ok true)
    (h5 : levelsEq E (a.ks.take (a.maxR + 1)) (b.ks.take (a.maxR + 1)) = true) : a.eq E b = .ok true := by
  unfold eq
  rw [h4]
  simp [h1, h2, h3]
  rw [h1] at h5
  exact h5

theorem treesContain_take {g : DK K} (h : g.NoneAbove) (e : Edge) :
    treesContain K e (g.ks.take (g.maxR + 1)) = treesContain K e g.ks := by
  have key : ∀ (l : List (Option K.T)) (r : Nat), (∀ i t, l[i]? = some (some t) → i < r) →
      treesContain K e (l.take r) = treesContain K e l := by
    intro l
    induction l with
    | nil => intro r _; simp
    | cons o l ih =>
      intro r hr
      cases r with
      | zero =>
        rw [List.take_zero]
        cases o with
        | some t => exact absurd (hr 0 t (by simp)) (by omega)
        | none =>
          show false = treesContain K e l
          rw [← ih 0 (fun i t hi => by
            have := hr (i + 1) t (by simpa using hi); omega)]
          rfl
      | succ r =>
        have h' : ∀ i t, l[i]? = some (some t) → i < r := fun i t hi => by
          have := hr (i + 1) t (by simpa using hi); omega
        rw [List.take_succ_cons]
        cases o with
        | none => exact ih r h'
        | some t =>
          show (if K.adj t e then true else _) = (if K.adj t e then true else _)
          rw [ih r h']
  exact key g.ks (g.maxR + 1) (fun i t hi => by have := h i t hi; omega)

end DK
end DK2
