import Verif.C0
import Verif.K2
import Mathlib.Data.List.Nodup
/-!
# Invariant of `Container0` and refinement to a list of edges in insertion order
-/

namespace DK2

/-- `l` is laid out in `el` as a doubly linked list. -/
def Linked (el : List NodeEdge) (l : List Nat) : Prop :=
  ∀ pre a post, l = pre ++ a :: post → el[a]? = some ⟨post.head?, pre.getLast?⟩

theorem Linked.nil (el : List NodeEdge) : Linked el [] := by
  intro pre a post h; simp at h

theorem Linked.congr {el el' : List NodeEdge} {l : List Nat} (h : Linked el l)
    (he : ∀ a ∈ l, el'[a]? = el[a]?) : Linked el' l := by
  intro pre a post hl
  rw [he a (by rw [hl]; simp)]
  exact h pre a post hl

theorem Linked.cons {el el' : List NodeEdge} {l : List Nat} {n : Nat} (h : Linked el l)
    (hn : el'[n]? = some ⟨l.head?, none⟩)
    (hh : ∀ a t, l = a :: t → el'[a]? = some ⟨t.head?, some n⟩)
    (he : ∀ a t b, l = a :: t → b ∈ t → el'[b]? = el[b]?) : Linked el' (n :: l) := by
  intro pre a post hl
  cases pre with
  | nil => simp at hl; obtain ⟨rfl, rfl⟩ := hl; simpa using hn
  | cons m pre =>
    simp only [List.cons_append, List.cons.injEq] at hl
    obtain ⟨rfl, hl⟩ := hl
    cases pre with
    | nil => simpa using hh a post (by simpa using hl)
    | cons b pre =>
      have := he b (pre ++ a :: post) a (by simpa using hl) (by simp)
      rw [this, h _ _ _ hl]
      simp

theorem Linked.remove {el el' : List NodeEdge} {P Q : List Nat} {i : Nat}
    (h : Linked el (P ++ i :: Q))
    (hp : ∀ P' p, P = P' ++ [p] → el'[p]? = some ⟨Q.head?, P'.getLast?⟩)
    (hq : ∀ q Q', Q = q :: Q' → el'[q]? = some ⟨Q'.head?, P.getLast?⟩)
    (hother : ∀ a ∈ P ++ Q, (∀ P' p, P = P' ++ [p] → a ≠ p) → (∀ q Q', Q = q :: Q' → a ≠ q) →
      el'[a]? = el[a]?)
    (hnd : (P ++ i :: Q).Nodup) : Linked el' (P ++ Q) := by
  intro pre a post hl
  have hnd' : (P ++ Q).Nodup := hnd.sublist (by simp)
  rcases List.append_eq_append_iff.1 hl with ⟨Q1, hpre, hQ⟩ | ⟨P2, hP, hpost⟩
  · -- a in Q
    subst hpre
    cases Q1 with
    | nil => simp at hQ; simpa using hq a post hQ
    | cons q Q1 =>
      have h1 := h (P ++ i :: q :: Q1) a post (by simp [hQ])
      rw [hother a (by simp [hQ]) ?_ ?_, h1]
      · simp
      · intro P' p hPp hap
        subst hap
        rw [hPp, hQ] at hnd'
        simp [List.nodup_append] at hnd'
      · intro q' Q' hQ' hap
        rw [hQ'] at hQ hnd'
        simp at hQ
        rw [List.nodup_append] at hnd'
        have := hnd'.2.1
        rw [List.nodup_cons] at this
        apply this.1
        rw [← hap, hQ.2]; simp
  · cases P2 with
    | nil =>
      simp at hP hpost
      subst hP
      simpa using hq a post hpost.symm
    | cons b P2 =>
      simp only [List.cons_append, List.cons.injEq] at hpost
      obtain ⟨rfl, rfl⟩ := hpost
      rcases List.eq_nil_or_concat P2 with rfl | ⟨P3, p, rfl⟩
      · have := hp pre a hP
        simpa using this
      · have h1 := h pre a (P3 ++ [p] ++ i :: Q) (by simp [hP])
        rw [hother a (by simp [hP]) ?_ ?_, h1]
        · cases P3 <;> simp
        · intro P' p' hPp hap
          subst hap
          rw [hP] at hPp hnd'
          have : pre ++ a :: P3 ++ [p] = P' ++ [a] := by simpa using hPp
          have := List.append_inj' this rfl
          simp at this
          rw [← this.2] at hnd'
          rw [this.2] at hnd'
          simp [List.nodup_append] at hnd'
        · intro q' Q' hQ' hap
          subst hap
          rw [hP, hQ'] at hnd'
          simp [List.nodup_append] at hnd'

namespace C0

/-- Slot `i` holds a live (not erased) edge. -/
def isLive (c : C0) (i : Nat) : Bool := c.edgeFree[i]? = some (some i)

/-- Live slots in insertion order. -/
def liveSlots (c : C0) : List Nat := (List.range c.nElements).filter c.isLive

/-- The edge written in slot `i`. -/
def slotEdge (c : C0) (i : Nat) : Edge := (c.elementsNodes[i]?.join).getD (0, 0)

/-- The abstract content of the buffer: live edges in insertion order. -/
def live (c : C0) : List Edge := c.liveSlots.map c.slotEdge

/-- Live slots holding an edge out of `x`, most recent first. -/
def slotsOf (c : C0) (x : Nat) : List Nat :=
  (c.liveSlots.filter (fun i => decide ((c.slotEdge i).1 = x))).reverse

/-- Well-formedness of `Container0`. -/
structure WF (c : C0) : Prop where
  len_el : c.elements.length = c.maxEdges
  len_en : c.elementsNodes.length = c.maxEdges
  len_ef : c.edgeFree.length = c.maxEdges
  n_le : c.nElements ≤ c.maxEdges
  ef_hi : ∀ i, c.nElements ≤ i → i < c.maxEdges → c.edgeFree[i]? = some (some i)
  ef_lo : ∀ i, i < c.nElements → c.edgeFree[i]? = some (some i) ∨ c.edgeFree[i]? = some none
  en_lo : ∀ i, i < c.nElements → c.elementsNodes[i]? = some (some (c.slotEdge i))
  el_hi : ∀ i, c.nElements ≤ i → i < c.maxEdges → c.elements[i]? = some NodeEdge.fresh
  lst : ∀ e i, c.edgeLst e = some i ↔ i ∈ c.liveSlots ∧ c.slotEdge i = e
  marked_eq : c.marked + c.liveSlots.length = c.nElements
  adj_head : ∀ x, c.adjMap x = (c.slotsOf x).head?
  adj_link : ∀ x, Linked c.elements (c.slotsOf x)

theorem mem_liveSlots {c : C0} {i : Nat} :
    i ∈ c.liveSlots ↔ i < c.nElements ∧ c.edgeFree[i]? = some (some i) := by
  simp [liveSlots, isLive]

theorem liveSlots_nodup (c : C0) : c.liveSlots.Nodup := List.nodup_range.filter _

theorem mem_slotsOf {c : C0} {x i : Nat} :
    i ∈ c.slotsOf x ↔ i ∈ c.liveSlots ∧ (c.slotEdge i).1 = x := by
  simp [slotsOf]

theorem slotsOf_nodup (c : C0) (x : Nat) : (c.slotsOf x).Nodup := by
  unfold slotsOf
  rw [List.nodup_reverse]
  exact c.liveSlots_nodup.filter _

theorem WF.live_inj {c : C0} (h : c.WF) {i j : Nat} (hi : i ∈ c.liveSlots) (hj : j ∈ c.liveSlots)
    (he : c.slotEdge i = c.slotEdge j) : i = j := by
  have h1 := (h.lst (c.slotEdge i) i).2 ⟨hi, rfl⟩
  have h2 := (h.lst (c.slotEdge i) j).2 ⟨hj, he.symm⟩
  rw [h1] at h2; exact Option.some.inj h2

theorem WF.live_nodup {c : C0} (h : c.WF) : c.live.Nodup := by
  unfold live
  refine List.Nodup.map_on ?_ c.liveSlots_nodup
  intro i hi j hj he
  exact h.live_inj hi hj he

theorem WF.mem_live {c : C0} (h : c.WF) {e : Edge} : e ∈ c.live ↔ ∃ i, c.edgeLst e = some i := by
  unfold live
  simp only [List.mem_map]
  constructor
  · rintro ⟨i, hi, he⟩; exact ⟨i, (h.lst e i).2 ⟨hi, he⟩⟩
  · rintro ⟨i, hi⟩; exact ⟨i, ((h.lst e i).1 hi)⟩

theorem WF.not_mem_live {c : C0} (h : c.WF) {e : Edge} : e ∉ c.live ↔ c.edgeLst e = none := by
  rw [h.mem_live]
  cases hx : c.edgeLst e <;> simp

theorem WF.live_length {c : C0} (_ : c.WF) : c.live.length = c.liveSlots.length := by
  simp [live]

/-- `size()` is the number of live edges. -/
theorem WF.size_eq {c : C0} (h : c.WF) : c.size = c.live.length := by
  have := h.marked_eq
  rw [h.live_length]
  unfold size
  split <;> omega

/-- `contains` is membership in the abstract content and never goes out of bounds. -/
theorem WF.contains_eq {c : C0} (h : c.WF) (e : Edge) : c.contains e = .ok (decide (e ∈ c.live)) := by
  unfold contains
  cases hx : c.edgeLst e with
  | none =>
    have := h.not_mem_live.2 hx
    simp [this]
  | some m =>
    have h1 := ((h.lst e m).1 hx).1
    have : e ∈ c.live := h.mem_live.2 ⟨m, hx⟩
    simp [rd_of (mem_liveSlots.1 h1).2, this]

/-! ## Constructor, clean, resize -/

theorem liveSlots_zero {c : C0} (h : c.nElements = 0) : c.liveSlots = [] := by
  simp [liveSlots, h]

theorem new_wf (S : Sizing) (n : Nat) : (new S n).WF := by
  have hl : (new S n).liveSlots = [] := liveSlots_zero rfl
  have hs : ∀ x, (new S n).slotsOf x = [] := by intro x; simp [slotsOf, hl]
  constructor
  · simp [new]
  · simp [new]
  · simp [new]
  · simp [new]
  · intro i _ hi
    have hi : i < S.maxsz n 0 := hi
    simp [new, hi]
  · intro i hi; simp [new] at hi
  · intro i hi; simp [new] at hi
  · intro i _ hi
    have hi : i < S.maxsz n 0 := hi
    simp [new, hi]
  · intro e i; rw [hl]; simp [new]
  · rw [hl]; rfl
  · intro x; rw [hs]; rfl
  · intro x; rw [hs]; exact Linked.nil _

@[simp] theorem new_live (S : Sizing) (n : Nat) : (new S n).live = [] := by
  simp [live, liveSlots_zero (c := new S n) rfl]

/-- `clean()` succeeds, empties the container and keeps its capacity. -/
theorem WF.clean_ok {c : C0} (h : c.WF) :
    ∃ c', c.clean = .ok c' ∧ c'.WF ∧ c'.live = [] ∧ c'.nElements = 0 ∧ c'.marked = 0 ∧
      c'.maxEdges = c.maxEdges ∧ c'.nVertices = c.nVertices := by
  have h1 : ¬ c.edgeFree.length < c.maxEdges := by rw [h.len_ef]; omega
  unfold clean
  rw [if_neg h1]
  have hd : c.edgeFree.drop c.maxEdges = [] := by simp [h.len_ef]
  refine ⟨_, rfl, ?_, ?_, rfl, rfl, rfl, rfl⟩
  · rw [hd]
    have hl : ∀ c' : C0, c'.nElements = 0 → c'.liveSlots = [] := fun c' h => liveSlots_zero h
    constructor
    · simp
    · simp
    · simp
    · simp
    · intro i _ hi
      have hi : i < c.maxEdges := hi
      simp [hi]
    · intro i hi; simp at hi
    · intro i hi; simp at hi
    · intro i _ hi
      have hi : i < c.maxEdges := hi
      simp [hi]
    · intro e i; rw [hl _ rfl]; simp
    · rw [hl _ rfl]; rfl
    · intro x; simp [slotsOf, hl]
    · intro x; simp only [slotsOf, hl]; exact Linked.nil _
  · simp [live, liveSlots]

theorem getElem?_vresize {α : Type} {l : List α} {n i : Nat} {d : α} (h : l.length ≤ n) (hi : i < n) :
    (vresize l n d)[i]? = if i < l.length then l[i]? else some d := by
  unfold vresize
  rw [List.take_of_length_le h]
  split
  · rename_i h1; rw [List.getElem?_append_left h1]
  · rename_i h1
    rw [List.getElem?_append_right (by omega), List.getElem?_replicate]
    rw [if_pos (by omega)]

theorem length_vresize {α : Type} {l : List α} {n : Nat} {d : α} :
    (vresize l n d).length = n := by
  unfold vresize
  simp; omega

theorem WF.resize_spec {c : C0} (h : c.WF) (m : Nat) :
    (c.resize m).WF ∧ (c.resize m).live = c.live ∧ (c.resize m).nElements = c.nElements ∧
      (c.resize m).marked = c.marked ∧
      (c.resize m).maxEdges = max c.maxEdges m ∧ (c.resize m).nVertices = c.nVertices ∧
      (c.resize m).edgeLst = c.edgeLst := by
  unfold resize
  split
  swap
  · refine ⟨h, rfl, rfl, rfl, by omega, rfl, rfl⟩
  rename_i hm
  have hn := h.n_le
  have hef : ∀ i, i < c.nElements →
      ((vresize c.edgeFree m (some 0)).mapIdx (fun i v => if c.nElements ≤ i then some i else v))[i]?
        = c.edgeFree[i]? := by
    intro i hi
    rw [List.getElem?_mapIdx, getElem?_vresize (by rw [h.len_ef]; omega) (by omega)]
    rw [if_pos (by rw [h.len_ef]; omega)]
    simp [Nat.not_le.2 hi]
  have hen : ∀ i, i < c.nElements → (vresize c.elementsNodes m none)[i]? = c.elementsNodes[i]? := by
    intro i hi
    rw [getElem?_vresize (by rw [h.len_en]; omega) (by omega)]
    rw [if_pos (by rw [h.len_en]; omega)]
  have hel : ∀ i, i < c.maxEdges → (vresize c.elements m NodeEdge.fresh)[i]? = c.elements[i]? := by
    intro i hi
    rw [getElem?_vresize (by rw [h.len_el]; omega) (by omega)]
    rw [if_pos (by rw [h.len_el]; omega)]
  generalize hc' : ({ c with
      elements := vresize c.elements m NodeEdge.fresh
      elementsNodes := vresize c.elementsNodes m none
      edgeFree := (vresize c.edgeFree m (some 0)).mapIdx
        (fun i v => if c.nElements ≤ i then some i else v)
      maxEdges := m } : C0) = c'
  have e1 : c'.nElements = c.nElements := by rw [← hc']
  have e2 : c'.maxEdges = m := by rw [← hc']
  have hL : c'.liveSlots = c.liveSlots := by
    unfold liveSlots
    rw [e1]
    apply List.filter_congr
    intro i hi
    have := hef i (by simpa using hi)
    unfold isLive
    rw [← hc']
    simp only [this]
  have hS : ∀ i, i < c.nElements → c'.slotEdge i = c.slotEdge i := by
    intro i hi
    unfold slotEdge
    rw [← hc']
    simp only [hen i hi]
  have hSlots : ∀ x, c'.slotsOf x = c.slotsOf x := by
    intro x
    unfold slotsOf
    rw [hL]
    congr 1
    apply List.filter_congr
    intro i hi
    rw [hS i (mem_liveSlots.1 hi).1]
  refine ⟨?_, ?_, e1, by rw [← hc'], by rw [e2]; omega, by rw [← hc'], by rw [← hc']⟩
  · constructor
    · rw [← hc']; exact length_vresize
    · rw [← hc']; exact length_vresize
    · rw [← hc']; simp [length_vresize]
    · rw [e1, e2]; omega
    · intro i hi hi2
      rw [e1] at hi; rw [e2] at hi2
      rw [← hc']
      simp only [List.getElem?_mapIdx]
      rw [getElem?_vresize (by rw [h.len_ef]; omega) hi2]
      by_cases h3 : i < c.edgeFree.length
      · rw [if_pos h3, List.getElem?_eq_getElem h3]; simp [hi]
      · rw [if_neg h3]; simp [hi]
    · intro i hi
      rw [e1] at hi
      have := h.ef_lo i hi
      rw [← hc']; simp only [hef i hi]; exact this
    · intro i hi
      rw [e1] at hi
      rw [hS i hi, ← h.en_lo i hi, ← hc']
      exact hen i hi
    · intro i hi hi2
      rw [e1] at hi; rw [e2] at hi2
      rw [← hc']
      simp only
      rw [getElem?_vresize (by rw [h.len_el]; omega) hi2]
      split
      · rename_i h3; rw [h.len_el] at h3; exact h.el_hi i hi h3
      · rfl
    · intro e i
      have : c'.edgeLst = c.edgeLst := by rw [← hc']
      rw [this, h.lst, hL]
      constructor
      · rintro ⟨a, b⟩; exact ⟨a, by rw [hS i (mem_liveSlots.1 a).1]; exact b⟩
      · rintro ⟨a, b⟩; exact ⟨a, by rw [hS i (mem_liveSlots.1 a).1] at b; exact b⟩
    · have : c'.marked = c.marked := by rw [← hc']
      rw [this, hL, e1]; exact h.marked_eq
    · intro x
      have : c'.adjMap = c.adjMap := by rw [← hc']
      rw [this, hSlots]; exact h.adj_head x
    · intro x
      rw [hSlots]
      refine (h.adj_link x).congr ?_
      intro a ha
      have : a < c.nElements := (mem_liveSlots.1 (mem_slotsOf.1 ha).1).1
      rw [← hc']
      exact hel a (by omega)
  · unfold live
    rw [hL]
    apply List.map_congr_left
    intro i hi
    exact hS i (mem_liveSlots.1 hi).1


/-! ## insert -/

theorem slotEdge_set {c c' : C0} {n i : Nat} {e : Edge} (hn : n < c.elementsNodes.length)
    (h : c'.elementsNodes = c.elementsNodes.set n (some e)) :
    c'.slotEdge i = if i = n then e else c.slotEdge i := by
  unfold slotEdge
  rw [h]
  by_cases hi : i = n
  · subst hi; simp [hn]
  · rw [List.getElem?_set_ne (fun h => hi h.symm), if_neg hi]

theorem WF.insertSlot_ok {c : C0} (h : c.WF) {e : Edge} (he : c.edgeLst e = none)
    (hn : c.nElements < c.maxEdges) :
    ∃ c', c.insertSlot e = .ok c' ∧ c'.WF ∧ c'.live = c.live ++ [e] ∧
      c'.nElements = c.nElements + 1 ∧ c'.marked = c.marked ∧ c'.maxEdges = c.maxEdges ∧
      c'.nVertices = c.nVertices := by
  have hf := h.ef_hi c.nElements (Nat.le_refl _) hn
  have hlen := h.len_en
  have key : ∀ c' : C0, c'.edgeFree = c.edgeFree → c'.nElements = c.nElements + 1 →
      c'.marked = c.marked → c'.maxEdges = c.maxEdges →
      c'.elementsNodes = c.elementsNodes.set c.nElements (some e) →
      c'.edgeLst = upd c.edgeLst e (some c.nElements) →
      c'.adjMap = upd c.adjMap e.1 (some c.nElements) →
      c'.elements.length = c.elements.length →
      (∀ i, c.nElements < i → c'.elements[i]? = c.elements[i]?) →
      (∀ i ∈ c.liveSlots, (c.slotEdge i).1 ≠ e.1 → c'.elements[i]? = c.elements[i]?) →
      Linked c'.elements (c.nElements :: c.slotsOf e.1) →
      c'.WF ∧ c'.live = c.live ++ [e] := by
    intro c' h1 h2 h3 h4 h5 h6 h7 h8 h9 h10 h11
    have hL : c'.liveSlots = c.liveSlots ++ [c.nElements] := by
      unfold liveSlots
      rw [h2, List.range_succ, List.filter_append]
      have : c'.isLive = c.isLive := by unfold isLive; rw [h1]
      rw [this]
      have hl : c.isLive c.nElements = true := by simp [isLive, hf]
      simp [hl]
    have hS : ∀ i, c'.slotEdge i = if i = c.nElements then e else c.slotEdge i :=
      fun i => slotEdge_set (by omega) h5
    have hlt : ∀ i ∈ c.liveSlots, i ≠ c.nElements := by
      intro i hi; have := (mem_liveSlots.1 hi).1; omega
    have hso : ∀ x, c'.slotsOf x = if x = e.1 then c.nElements :: c.slotsOf x else c.slotsOf x := by
      intro x
      unfold slotsOf
      rw [hL, List.filter_append]
      have : c.liveSlots.filter (fun i => decide ((c'.slotEdge i).1 = x))
          = c.liveSlots.filter (fun i => decide ((c.slotEdge i).1 = x)) := by
        apply List.filter_congr
        intro i hi
        rw [hS, if_neg (hlt i hi)]
      rw [this]
      by_cases hx : x = e.1
      · subst hx
        simp [hS]
      · have hx' : e.1 ≠ x := fun h => hx h.symm
        simp [hS, hx, hx']
    constructor
    · constructor
      · rw [h8, h4]; exact h.len_el
      · rw [h5, h4]; simpa using h.len_en
      · rw [h1, h4]; exact h.len_ef
      · rw [h2, h4]; omega
      · intro i hi hi2; rw [h2] at hi; rw [h4] at hi2; rw [h1]; exact h.ef_hi i (by omega) hi2
      · intro i hi
        rw [h1]
        by_cases hin : i = c.nElements
        · subst hin; exact Or.inl hf
        · exact h.ef_lo i (by omega)
      · intro i hi
        rw [hS, h5]
        by_cases hin : i = c.nElements
        · subst hin; simp [hlen, hn]
        · rw [if_neg hin, List.getElem?_set_ne (fun h => hin h.symm)]
          exact h.en_lo i (by omega)
      · intro i hi hi2
        rw [h2] at hi; rw [h4] at hi2
        rw [h9 i (by omega)]; exact h.el_hi i (by omega) hi2
      · intro e' i
        rw [h6, hL, hS]
        by_cases hee : e' = e
        · subst hee
          rw [upd_same]
          constructor
          · intro hi
            have : c.nElements = i := Option.some.inj hi
            subst this; simp
          · rintro ⟨hi, hi2⟩
            rcases List.mem_append.1 hi with h12 | h12
            · rw [if_neg (hlt i h12)] at hi2
              have := (h.lst e' i).2 ⟨h12, hi2⟩
              rw [he] at this; cases this
            · simp at h12; rw [h12]
        · rw [upd_other _ _ hee, h.lst]
          constructor
          · rintro ⟨a, b⟩; refine ⟨by simp [a], by rw [if_neg (hlt i a)]; exact b⟩
          · rintro ⟨a, b⟩
            rcases List.mem_append.1 a with h12 | h12
            · rw [if_neg (hlt i h12)] at b; exact ⟨h12, b⟩
            · simp at h12; rw [if_pos h12] at b; exact absurd b.symm hee
      · have := h.marked_eq
        rw [h3, h2, hL]; simp; omega
      · intro x
        rw [h7, hso]
        by_cases hx : x = e.1
        · subst hx; simp
        · rw [upd_other _ _ hx, if_neg hx]; exact h.adj_head x
      · intro x
        rw [hso]
        by_cases hx : x = e.1
        · subst hx; simpa using h11
        · rw [if_neg hx]
          refine (h.adj_link x).congr ?_
          intro a ha
          have := mem_slotsOf.1 ha
          exact h10 a this.1 (by rw [this.2]; exact hx)
    · unfold live
      rw [hL, List.map_append]
      congr 1
      · apply List.map_congr_left
        intro i hi; rw [hS, if_neg (hlt i hi)]
      · simp [hS]
  unfold insertSlot
  simp only [rd_of hf, Res.ok_bind, use, wr_of (show c.nElements < c.elementsNodes.length by omega)]
  have hfresh := h.el_hi c.nElements (Nat.le_refl _) hn
  have hah := h.adj_head e.1
  cases ha : c.adjMap e.1 with
  | none =>
    rw [ha] at hah
    have hso : c.slotsOf e.1 = [] := by
      cases hx : c.slotsOf e.1 with
      | nil => rfl
      | cons a t => rw [hx] at hah; simp at hah
    refine ⟨_, rfl, ?_⟩
    have := key { c with
      nElements := c.nElements + 1
      elementsNodes := c.elementsNodes.set c.nElements (some e)
      edgeLst := upd c.edgeLst e (some c.nElements)
      adjMap := upd c.adjMap e.1 (some c.nElements) } rfl rfl rfl rfl rfl rfl rfl rfl
      (fun _ _ => rfl) (fun _ _ _ => rfl) ?_
    · exact ⟨this.1, this.2, rfl, rfl, rfl, rfl⟩
    · rw [hso]
      refine Linked.cons (Linked.nil c.elements) ?_ ?_ ?_
      · simpa [NodeEdge.fresh] using hfresh
      · intro a t hh; simp at hh
      · intro a t b hh; simp at hh
  | some hd =>
    rw [ha] at hah
    obtain ⟨t, hso⟩ : ∃ t, c.slotsOf e.1 = hd :: t := by
      cases hx : c.slotsOf e.1 with
      | nil => rw [hx] at hah; simp at hah
      | cons a t => rw [hx] at hah; simp at hah; subst hah; exact ⟨t, rfl⟩
    have hdm : hd ∈ c.liveSlots ∧ (c.slotEdge hd).1 = e.1 := mem_slotsOf.1 (by rw [hso]; simp)
    have hdlt := (mem_liveSlots.1 hdm.1).1
    have hlen2 := h.len_el
    have hdn : hd ≠ c.nElements := by omega
    have hlink := h.adj_link e.1
    have hhd : c.elements[hd]? = some ⟨t.head?, none⟩ := by
      have := hlink [] hd t (by rw [hso]; rfl)
      simpa using this
    have hnext : ∀ (v : NodeEdge), (c.elements.set c.nElements v)[hd]? = some ⟨t.head?, none⟩ := by
      intro v; rw [List.getElem?_set_ne (fun h => hdn h.symm)]; exact hhd
    simp only [rd_of hfresh, Res.ok_bind, wr_of (show c.nElements < c.elements.length by omega),
      rd_of (hnext _), wr_of (show hd < (c.elements.set c.nElements _).length by simp; omega)]
    refine ⟨_, rfl, ?_⟩
    have hnd := c.slotsOf_nodup e.1
    have := key { c with
      nElements := c.nElements + 1
      elementsNodes := c.elementsNodes.set c.nElements (some e)
      elements := (c.elements.set c.nElements { NodeEdge.fresh with next := some hd }).set hd
        { (⟨t.head?, none⟩ : NodeEdge) with prev := some c.nElements }
      edgeLst := upd c.edgeLst e (some c.nElements)
      adjMap := upd c.adjMap e.1 (some c.nElements) } rfl rfl rfl rfl rfl rfl rfl (by simp)
      ?_ ?_ ?_
    · exact ⟨this.1, this.2, rfl, rfl, rfl, rfl⟩
    · intro i hi
      simp only
      rw [List.getElem?_set_ne (by omega), List.getElem?_set_ne (by omega)]
    · intro i hi hi2
      have h13 : i ≠ hd := fun h => hi2 (h ▸ hdm.2)
      have := (mem_liveSlots.1 hi).1
      simp only
      rw [List.getElem?_set_ne (fun h => h13 h.symm), List.getElem?_set_ne (by omega)]
    · refine Linked.cons hlink ?_ ?_ ?_
      · simp only
        rw [List.getElem?_set_ne hdn, hso]
        simp [NodeEdge.fresh, hlen2, hn]
      · intro a t' hh
        rw [hso] at hh
        simp at hh
        obtain ⟨rfl, rfl⟩ := hh
        simp only
        rw [List.getElem?_set_self (by simp; omega)]
      · intro a t' b hh hb
        rw [hso] at hh hnd
        simp at hh
        obtain ⟨rfl, rfl⟩ := hh
        have hb1 : b ≠ hd := by
          rintro rfl
          exact (List.nodup_cons.1 hnd).1 hb
        have hb2 := (mem_liveSlots.1 (mem_slotsOf.1 (show b ∈ c.slotsOf e.1 by
          rw [hso]; simp [hb])).1).1
        simp only
        rw [List.getElem?_set_ne (fun h => hb1 h.symm), List.getElem?_set_ne (by omega)]

/-- The exact condition under which `insertSlot` indexes out of bounds. -/
theorem WF.insertSlot_ub {c : C0} (h : c.WF) {e : Edge} (hn : ¬ c.nElements < c.maxEdges) :
    c.insertSlot e = .ub := by
  unfold insertSlot
  have : rd c.edgeFree c.nElements = .ub := by
    unfold rd
    rw [List.getElem?_eq_none (by rw [h.len_ef]; omega)]
  rw [this]; rfl

/-- Room for one more slot, after the growth `insert` performs. -/
def room (S : Sizing) (c : C0) (nEdges : Nat) : Prop :=
  c.nElements < max c.maxEdges (S.maxsz (max c.nVertices nEdges) 0)

instance (S : Sizing) (c : C0) (m : Nat) : Decidable (room S c m) := by
  unfold room; infer_instance

/-- `insert` of a present edge is a no-op. -/
theorem insert_present {S : Sizing} {c : C0} (h : c.WF) {e : Edge} {m : Nat} (he : e ∈ c.live) :
    c.insert S e m = .ok c := by
  obtain ⟨i, hi⟩ := h.mem_live.1 he
  simp [insert, hi]

/-- `insert` of an absent edge with room appends it. -/
theorem insert_absent {S : Sizing} {c : C0} (h : c.WF) {e : Edge} {m : Nat} (he : e ∉ c.live)
    (hr : c.room S m) :
    ∃ c', c.insert S e m = .ok c' ∧ c'.WF ∧ c'.live = c.live ++ [e] ∧
      c'.nElements = c.nElements + 1 ∧ c'.marked = c.marked ∧ c'.nVertices = c.nVertices := by
  have he' := h.not_mem_live.1 he
  have hlen := h.len_el
  unfold room at hr
  simp only [insert, he', Option.isSome_none, Bool.false_eq_true, if_false]
  split
  · rename_i hge
    obtain ⟨h1, h2, h3, h4, h5, h6, h7⟩ := h.resize_spec (S.maxsz (max c.nVertices m) 0)
    obtain ⟨c', a1, a2, a3, a4, a5, a6, a7⟩ := h1.insertSlot_ok (e := e) (by rw [h7]; exact he')
      (by rw [h3, h5]; exact hr)
    refine ⟨c', a1, a2, by rw [a3, h2], by rw [a4, h3], by rw [a5, h4], by rw [a7, h6]⟩
  · obtain ⟨c', a1, a2, a3, a4, a5, a6, a7⟩ := h.insertSlot_ok he' (by omega)
    exact ⟨c', a1, a2, a3, a4, a5, a7⟩

/-- `insert` of an absent edge without room is undefined behaviour. -/
theorem insert_noroom {S : Sizing} {c : C0} (h : c.WF) {e : Edge} {m : Nat} (he : e ∉ c.live)
    (hr : ¬ c.room S m) : c.insert S e m = .ub := by
  have he' := h.not_mem_live.1 he
  have hlen := h.len_el
  unfold room at hr
  simp only [insert, he', Option.isSome_none, Bool.false_eq_true, if_false]
  rw [if_pos (by omega)]
  obtain ⟨h1, h2, h3, h4, h5, h6, h7⟩ := h.resize_spec (S.maxsz (max c.nVertices m) 0)
  exact h1.insertSlot_ub (by rw [h3, h5]; exact hr)

/-! ## erase -/

theorem filter_liveSlots {c c' : C0} {i : Nat} (h2 : c'.nElements = c.nElements)
    (hi : i < c.edgeFree.length)
    (h1 : c'.edgeFree = c.edgeFree.set i none) :
    c'.liveSlots = c.liveSlots.filter (fun j => decide (j ≠ i)) := by
  unfold liveSlots
  rw [h2, List.filter_filter]
  apply List.filter_congr
  intro j _
  unfold isLive
  rw [h1]
  by_cases hj : j = i
  · subst hj; simp [hi]
  · rw [List.getElem?_set_ne (fun h => hj h.symm)]; simp [hj]

theorem WF.erase_ok {c : C0} (h : c.WF) (e : Edge) :
    ∃ c', c.erase e = .ok (decide (e ∈ c.live), c') ∧ c'.WF ∧
      c'.live = c.live.filter (fun e' => decide (e' ≠ e)) ∧
      c'.nElements = c.nElements ∧ c'.maxEdges = c.maxEdges ∧ c'.nVertices = c.nVertices := by
  unfold erase
  cases hx : c.edgeLst e with
  | none =>
    have hnm := h.not_mem_live.2 hx
    refine ⟨c, by simp [hnm], h, ?_, rfl, rfl, rfl⟩
    rw [eq_comm, List.filter_eq_self]
    intro a ha
    have : a ≠ e := fun h => hnm (h ▸ ha)
    simpa using this
  | some i =>
    have hmem : e ∈ c.live := h.mem_live.2 ⟨i, hx⟩
    obtain ⟨hil, hie⟩ := (h.lst e i).1 hx
    have hilt := (mem_liveSlots.1 hil).1
    have hnle := h.n_le
    have hief : i < c.edgeFree.length := by rw [h.len_ef]; omega
    have hso : i ∈ c.slotsOf e.1 := mem_slotsOf.2 ⟨hil, by rw [hie]⟩
    obtain ⟨P, Q, hPQ⟩ := List.append_of_mem hso
    have hnd := c.slotsOf_nodup e.1
    have hlink := h.adj_link e.1
    have hnode := hlink P i Q hPQ
    have hlenel := h.len_el
    have hbnd : ∀ a ∈ c.slotsOf e.1, a < c.elements.length := by
      intro a ha
      have := (mem_liveSlots.1 (mem_slotsOf.1 ha).1).1
      omega
    -- the common part
    have key : ∀ el am, c.unlink e.1 i = .ok (el, am) → el.length = c.elements.length →
        (∀ a, a ∉ P ++ Q → el[a]? = c.elements[a]?) →
        am = upd c.adjMap e.1 (P ++ Q).head? → Linked el (P ++ Q) →
        ∃ c', (do
            let r ← c.unlink e.1 i
            let ef ← wr c.edgeFree i none
            Res.ok (true, { c with
              edgeLst := upd c.edgeLst e none
              elements := r.1
              adjMap := r.2
              edgeFree := ef
              marked := c.marked + 1 })) = .ok (decide (e ∈ c.live), c') ∧ c'.WF ∧
          c'.live = c.live.filter (fun e' => decide (e' ≠ e)) ∧
          c'.nElements = c.nElements ∧ c'.maxEdges = c.maxEdges ∧ c'.nVertices = c.nVertices := by
      intro el am hu hl ho ham hlk
      rw [hu]
      simp only [Res.ok_bind, wr_of hief, hmem, decide_true]
      refine ⟨_, rfl, ?_⟩
      generalize hc' : ({ c with
              edgeLst := upd c.edgeLst e none
              elements := el
              adjMap := am
              edgeFree := c.edgeFree.set i none
              marked := c.marked + 1 } : C0) = c'
      have e1 : c'.nElements = c.nElements := by rw [← hc']
      have e2 : c'.maxEdges = c.maxEdges := by rw [← hc']
      have e3 : c'.elementsNodes = c.elementsNodes := by rw [← hc']
      have e4 : c'.edgeFree = c.edgeFree.set i none := by rw [← hc']
      have e5 : c'.elements = el := by rw [← hc']
      have hL := filter_liveSlots (c := c) (c' := c') e1 hief e4
      have hS : ∀ j, c'.slotEdge j = c.slotEdge j := by intro j; unfold slotEdge; rw [e3]
      have hso' : ∀ x, c'.slotsOf x = if x = e.1 then P ++ Q else c.slotsOf x := by
        intro x
        have hcomm : c'.slotsOf x = (c.slotsOf x).filter (fun j => decide (j ≠ i)) := by
          unfold slotsOf
          rw [hL, List.filter_reverse, List.filter_filter, List.filter_filter]
          congr 1
          apply List.filter_congr
          intro j _
          rw [hS, Bool.and_comm]
        rw [hcomm]
        split
        · rename_i hxe
          subst hxe
          rw [hPQ]
          rw [hPQ, List.nodup_append] at hnd
          have hP : P.filter (fun j => decide (j ≠ i)) = P := by
            rw [List.filter_eq_self]
            intro a ha
            have := hnd.2.2 a ha i (by simp)
            simpa using this
          have hQ : Q.filter (fun j => decide (j ≠ i)) = Q := by
            rw [List.filter_eq_self]
            intro a ha
            have h1 := (List.nodup_cons.1 hnd.2.1).1
            have : a ≠ i := fun h => h1 (h ▸ ha)
            simpa using this
          rw [List.filter_append, List.filter_cons, hP, hQ]
          simp
        · rename_i hxe
          rw [List.filter_eq_self]
          intro a ha
          have h1 := (mem_slotsOf.1 ha).2
          have : a ≠ i := by
            rintro rfl
            apply hxe; rw [← h1, hie]
          simpa using this
      refine ⟨?_, ?_, e1, e2, by rw [← hc']⟩
      · constructor
        · rw [e5, e2, hl]; exact hlenel
        · rw [e3, e2]; exact h.len_en
        · rw [e4, e2]; simpa using h.len_ef
        · rw [e1, e2]; exact hnle
        · intro j hj hj2
          rw [e1] at hj; rw [e2] at hj2
          rw [e4, List.getElem?_set_ne (by omega)]; exact h.ef_hi j hj hj2
        · intro j hj
          rw [e1] at hj
          rw [e4]
          by_cases hji : j = i
          · subst hji; right; simp [hief]
          · rw [List.getElem?_set_ne (fun h => hji h.symm)]; exact h.ef_lo j hj
        · intro j hj
          rw [e1] at hj
          rw [e3, hS]; exact h.en_lo j hj
        · intro j hj hj2
          rw [e1] at hj; rw [e2] at hj2
          rw [e5, ho j ?_]
          · exact h.el_hi j hj hj2
          · intro hmem'
            have : j ∈ c.slotsOf e.1 := by
              rw [hPQ]
              rcases List.mem_append.1 hmem' with h1 | h1 <;> simp [h1]
            have := (mem_liveSlots.1 (mem_slotsOf.1 this).1).1
            omega
        · intro e' j
          have : c'.edgeLst = upd c.edgeLst e none := by rw [← hc']
          rw [this, hL, hS]
          by_cases hee : e' = e
          · subst hee
            rw [upd_same]
            constructor
            · intro h; cases h
            · rintro ⟨a, b⟩
              rw [List.mem_filter] at a
              have := h.live_inj a.1 hil (by rw [b, hie])
              simp [this] at a
          · rw [upd_other _ _ hee, h.lst]
            constructor
            · rintro ⟨a, b⟩
              refine ⟨List.mem_filter.2 ⟨a, ?_⟩, b⟩
              have : j ≠ i := by rintro rfl; exact hee (by rw [← b, hie])
              simpa using this
            · rintro ⟨a, b⟩; exact ⟨(List.mem_filter.1 a).1, b⟩
        · have h1 : c'.marked = c.marked + 1 := by rw [← hc']
          have h2 := length_filter_ne c.liveSlots_nodup hil
          have h3 := h.marked_eq
          rw [h1, hL, e1]; omega
        · intro x
          have : c'.adjMap = am := by rw [← hc']
          rw [this, hso', ham]
          by_cases hxe : x = e.1
          · subst hxe; simp
          · rw [upd_other _ _ hxe, if_neg hxe]; exact h.adj_head x
        · intro x
          rw [hso', e5]
          by_cases hxe : x = e.1
          · rw [if_pos hxe]; exact hlk
          · rw [if_neg hxe]
            refine (h.adj_link x).congr ?_
            intro a ha
            apply ho
            intro hm
            have : a ∈ c.slotsOf e.1 := by
              rw [hPQ]
              rcases List.mem_append.1 hm with h1 | h1 <;> simp [h1]
            have h1 := (mem_slotsOf.1 this).2
            have h2 := (mem_slotsOf.1 ha).2
            exact hxe (by rw [← h1, h2])
      · unfold live
        rw [hL]
        rw [List.filter_map]
        have : (c.liveSlots.filter (fun j => decide (j ≠ i)))
            = c.liveSlots.filter ((fun e' => decide (e' ≠ e)) ∘ c.slotEdge) := by
          apply List.filter_congr
          intro j hj
          have : j ≠ i ↔ c.slotEdge j ≠ e := by
            constructor
            · intro h1 h2; exact h1 (h.live_inj hj hil (by rw [h2, hie]))
            · rintro h1 rfl; exact h1 hie
          simp [this]
        rw [this]
        apply List.map_congr_left
        intro j _
        exact hS j
    have hah := h.adj_head e.1
    rw [hPQ] at hah hnd hlink
    have hupd : ∀ v, c.adjMap e.1 = v → c.adjMap = upd c.adjMap e.1 v := by
      intro v hv; funext x; by_cases hxe : x = e.1
      · subst hxe; simp [hv]
      · simp [upd_other _ _ hxe]
    have hndPQ := List.nodup_append.1 hnd
    have hiQ : i ∉ Q := (List.nodup_cons.1 hndPQ.2.1).1
    rcases (show P = [] ∨ ∃ P' p, P = P' ++ [p] by
      rcases List.eq_nil_or_concat P with h | ⟨a, b, h⟩
      · exact Or.inl h
      · exact Or.inr ⟨a, b, by simpa using h⟩) with rfl | ⟨P', p, rfl⟩
    · cases Q with
      | nil =>
        simp at hnode
        refine key c.elements (upd c.adjMap e.1 none) ?_ rfl (fun _ _ => rfl) rfl (Linked.nil _)
        simp [unlink, rd_of hnode]
      | cons q Q' =>
        simp at hnode
        have hqn : c.elements[q]? = some ⟨Q'.head?, some i⟩ := by
          have := hlink [i] q Q' (by simp)
          simpa using this
        have hqlt : q < c.elements.length := hbnd q (by rw [hPQ]; simp)
        have hndq : (q :: Q').Nodup := (List.nodup_cons.1 hndPQ.2.1).2
        refine key (c.elements.set q ⟨Q'.head?, none⟩) (upd c.adjMap e.1 (some q)) ?_ (by simp) ?_
          (by simp) ?_
        · simp [unlink, rd_of hnode, rd_of hqn, wr_of hqlt]
        · intro a ha
          rw [List.getElem?_set_ne]
          rintro rfl; simp at ha
        · refine Linked.remove hlink ?_ ?_ ?_ (by simpa using hnd)
          · intro P' p hp; simp at hp
          · intro q' Q'' hq
            simp at hq
            obtain ⟨rfl, rfl⟩ := hq
            simp [hqlt]
          · intro a ha _ hq
            rw [List.getElem?_set_ne]
            exact fun h => hq q Q' rfl h.symm
    · have hpn : c.elements[p]? = some ⟨some i, P'.getLast?⟩ := by
        have := hlink P' p (i :: Q) (by simp)
        simpa using this
      have hplt : p < c.elements.length := hbnd p (by rw [hPQ]; simp)
      have hhead : c.adjMap e.1 = (P' ++ [p] ++ Q).head? := by
        rw [hah]; cases P' <;> simp
      cases Q with
      | nil =>
        simp at hnode
        refine key (c.elements.set p ⟨none, P'.getLast?⟩) c.adjMap ?_ (by simp) ?_
          (hupd _ (by simpa using hhead)) ?_
        · simp [unlink, rd_of hnode, rd_of hpn, wr_of hplt]
        · intro a ha
          rw [List.getElem?_set_ne]
          rintro rfl; simp at ha
        · refine Linked.remove hlink ?_ ?_ ?_ (by simpa using hnd)
          · intro P1 p1 hp
            have := List.append_inj' hp rfl
            simp at this
            obtain ⟨rfl, rfl⟩ := this
            simp [hplt]
          · intro q' Q'' hq; simp at hq
          · intro a ha hp _
            rw [List.getElem?_set_ne]
            exact fun h => hp P' p rfl h.symm
      | cons q Q' =>
        simp at hnode
        have hqn : c.elements[q]? = some ⟨Q'.head?, some i⟩ := by
          have := hlink (P' ++ [p] ++ [i]) q Q' (by simp)
          simpa using this
        have hqlt : q < c.elements.length := hbnd q (by rw [hPQ]; simp)
        have hpq : p ≠ q := hndPQ.2.2 p (by simp) q (by simp)
        have hpn2 : (c.elements.set q ⟨Q'.head?, some p⟩)[p]? = some ⟨some i, P'.getLast?⟩ := by
          rw [List.getElem?_set_ne (fun h => hpq h.symm)]; exact hpn
        refine key ((c.elements.set q ⟨Q'.head?, some p⟩).set p ⟨some q, P'.getLast?⟩) c.adjMap ?_
          (by simp) ?_ (hupd _ (by simpa using hhead)) ?_
        · simp [unlink, rd_of hnode, rd_of hqn, wr_of hqlt, rd_of hpn2,
            wr_of (show p < (c.elements.set q ⟨Q'.head?, some p⟩).length by simpa using hplt)]
        · intro a ha
          rw [List.getElem?_set_ne, List.getElem?_set_ne]
          · rintro rfl; simp at ha
          · rintro rfl; simp at ha
        · refine Linked.remove hlink ?_ ?_ ?_ (by simpa using hnd)
          · intro P1 p1 hp
            have := List.append_inj' hp rfl
            simp at this
            obtain ⟨rfl, rfl⟩ := this
            simp [hplt]
          · intro q' Q'' hq
            simp at hq
            obtain ⟨rfl, rfl⟩ := hq
            rw [List.getElem?_set_ne hpq, List.getElem?_set_self hqlt]
            simp
          · intro a ha hp hq
            rw [List.getElem?_set_ne, List.getElem?_set_ne]
            · exact fun h => hq q Q' rfl h.symm
            · exact fun h => hp P' p rfl h.symm

/-! ## neighbour listing and conversion -/

theorem WF.walk_eq {c : C0} (h : c.WF) {x : Nat} :
    ∀ (post pre : List Nat) (a fuel : Nat), c.slotsOf x = pre ++ a :: post → post.length < fuel →
      c.walk fuel a = .ok ((a :: post).map (fun i => (c.slotEdge i).2)) := by
  intro post
  induction post with
  | nil =>
    intro pre a fuel hs hf
    cases fuel with
    | zero => simp at hf
    | succ f =>
      have h1 := h.adj_link x pre a [] hs
      have h2 := h.en_lo a (mem_liveSlots.1 (mem_slotsOf.1 (show a ∈ c.slotsOf x by
        rw [hs]; simp)).1).1
      simp [walk, rd_of h1, rd_of h2, use]
  | cons b post ih =>
    intro pre a fuel hs hf
    cases fuel with
    | zero => simp at hf
    | succ f =>
      have h1 := h.adj_link x pre a (b :: post) hs
      have h2 := h.en_lo a (mem_liveSlots.1 (mem_slotsOf.1 (show a ∈ c.slotsOf x by
        rw [hs]; simp)).1).1
      have h3 := ih (pre ++ [a]) b f (by simp [hs]) (by simpa using hf)
      simp [walk, rd_of h1, rd_of h2, use, h3]

theorem WF.walkIt_eq {c : C0} (h : c.WF) {σ : Type} (func : σ → Nat → σ) {x : Nat} :
    ∀ (post pre : List Nat) (a fuel : Nat) (s : σ), c.slotsOf x = pre ++ a :: post →
      post.length < fuel →
      c.walkIt func fuel a s = .ok (((a :: post).map (fun i => (c.slotEdge i).2)).foldl func s) := by
  intro post
  induction post with
  | nil =>
    intro pre a fuel s hs hf
    cases fuel with
    | zero => simp at hf
    | succ f =>
      have h1 := h.adj_link x pre a [] hs
      have h2 := h.en_lo a (mem_liveSlots.1 (mem_slotsOf.1 (show a ∈ c.slotsOf x by
        rw [hs]; simp)).1).1
      simp [walkIt, rd_of h1, rd_of h2, use]
  | cons b post ih =>
    intro pre a fuel s hs hf
    cases fuel with
    | zero => simp at hf
    | succ f =>
      have h1 := h.adj_link x pre a (b :: post) hs
      have h2 := h.en_lo a (mem_liveSlots.1 (mem_slotsOf.1 (show a ∈ c.slotsOf x by
        rw [hs]; simp)).1).1
      have h3 := ih (pre ++ [a]) b f (func s (c.slotEdge a).2) (by simp [hs]) (by simpa using hf)
      simp [walkIt, rd_of h1, rd_of h2, use, h3]

theorem WF.slotsOf_map {c : C0} (_ : c.WF) (x : Nat) :
    (c.slotsOf x).map (fun i => (c.slotEdge i).2)
      = ((c.live.filter (fun e => decide (e.1 = x))).map (·.2)).reverse := by
  unfold slotsOf live
  rw [List.filter_map, List.map_reverse, List.map_map]
  rfl

theorem WF.slotsOf_length {c : C0} (h : c.WF) (x : Nat) : (c.slotsOf x).length ≤ c.elements.length := by
  have h1 : (c.slotsOf x).length ≤ c.liveSlots.length := by
    unfold slotsOf; rw [List.length_reverse]; exact List.length_filter_le _ _
  have := h.marked_eq
  have := h.n_le
  rw [h.len_el]; omega

/-- `list_neighbours` terminates in bounds and yields the successors, most recent first. -/
theorem WF.listNeighbours_eq {c : C0} (h : c.WF) (x : Nat) :
    c.listNeighbours x = .ok ((c.live.filter (fun e => decide (e.1 = x))).map (·.2)).reverse := by
  rw [← h.slotsOf_map]
  have ha := h.adj_head x
  have hl := h.slotsOf_length x
  unfold listNeighbours
  cases hs : c.slotsOf x with
  | nil => rw [hs] at ha; simp at ha; simp [ha]
  | cons a t =>
    rw [hs] at ha hl; simp at ha; rw [ha]
    have : c.elements.isEmpty = false := by
      cases hc : c.elements with
      | nil => rw [hc] at hl; simp at hl
      | cons _ _ => rfl
    simp only [this]
    exact h.walk_eq t [] a _ (by simpa using hs) (by simp at hl; omega)

theorem WF.neighIt_eq {c : C0} (h : c.WF) {σ : Type} (func : σ → Nat → σ) (x : Nat) (s : σ) :
    c.neighIt x func s =
      .ok ((((c.live.filter (fun e => decide (e.1 = x))).map (·.2)).reverse).foldl func s) := by
  rw [← h.slotsOf_map]
  have ha := h.adj_head x
  have hl := h.slotsOf_length x
  unfold neighIt
  cases hs : c.slotsOf x with
  | nil => rw [hs] at ha; simp at ha; simp [ha]
  | cons a t =>
    rw [hs] at ha hl; simp at ha; rw [ha]
    have : c.elements.isEmpty = false := by
      cases hc : c.elements with
      | nil => rw [hc] at hl; simp at hl
      | cons _ _ => rfl
    simp only [this]
    exact h.walkIt_eq func t [] a _ s (by simpa using hs) (by simp at hl; omega)

theorem WF.convertFrom_eq {c : C0} (h : c.WF) :
    ∀ l : List Nat, (∀ i ∈ l, i < c.nElements) →
      c.convertFrom l = .ok ((l.filter c.isLive).map c.slotEdge) := by
  intro l
  induction l with
  | nil => intro _; rfl
  | cons j l ih =>
    intro hl
    have hj := hl j (by simp)
    have ih := ih (fun i hi => hl i (by simp [hi]))
    unfold convertFrom
    rcases h.ef_lo j hj with h1 | h1
    · have hlv : c.isLive j = true := by simp [isLive, h1]
      simp [rd_of h1, rd_of (h.en_lo j hj), use, ih, hlv]
    · have hlv : c.isLive j = false := by simp [isLive, h1]
      simp [rd_of h1, ih, hlv]

/-- The vector `converted` is the live content in insertion order. -/
theorem WF.converted_eq {c : C0} (h : c.WF) : c.converted = .ok c.live :=
  h.convertFrom_eq _ (by simp)

end C0
end DK2
