import Verif.Iter
import Verif.DKMore
/-!
# Proofs about the iterators
-/

namespace DK2

/-- Simulation: an iterator that stands at `l` visits `l`. -/
theorem drive_eq {σ α : Type} {cur : σ → Option α} {next : σ → Res σ} (R : σ → List α → Prop)
    (h0 : ∀ s, R s [] → cur s = none)
    (h1 : ∀ s a l, R s (a :: l) → cur s = some a ∧ ∃ s', next s = .ok s' ∧ R s' l) :
    ∀ (l : List α) (f : Nat) (s : σ), R s l → l.length < f → drive cur next f s = .ok l := by
  intro l
  induction l with
  | nil =>
    intro f s h hf
    cases f with
    | zero => simp at hf
    | succ f => simp [drive, h0 s h]
  | cons a l ih =>
    intro f s h hf
    cases f with
    | zero => simp at hf
    | succ f =>
      obtain ⟨e1, s', e2, h'⟩ := h1 s a l h
      simp only [drive, e1, e2, Res.ok_bind]
      rw [ih f s' h' (by simpa using hf)]
      rfl

theorem toInt_of_lt {y : Nat} (h : y < 2 ^ 31) : toInt y = y := by
  unfold toInt
  have : y % 2 ^ 32 = y := Nat.mod_eq_of_lt (by omega)
  rw [this, if_pos h]

namespace C0

/-- The buffer iterator stands at `l` in the chain of `x`. -/
def At (c : C0) (x : Nat) (it : It) (l : List Nat) : Prop :=
  (l = [] ∧ it.ptr = none) ∨
  ∃ pre a post, c.slotsOf x = pre ++ a :: post ∧ it.k = a ∧ it.ptr = some (c.slotEdge a).2 ∧
    l = (a :: post).map (fun i => (c.slotEdge i).2)

theorem WF.node {c : C0} (h : c.WF) {x a : Nat} {pre post : List Nat}
    (hs : c.slotsOf x = pre ++ a :: post) :
    c.elementsNodes[a]? = some (some (c.slotEdge a)) ∧
    c.elements[a]? = some ⟨post.head?, pre.getLast?⟩ := by
  have ha : a ∈ c.slotsOf x := by rw [hs]; simp
  have h1 := (mem_liveSlots.1 (mem_slotsOf.1 ha).1).1
  refine ⟨h.en_lo a h1, ?_⟩
  have := h.adj_link x
  unfold Linked at this
  exact this pre a post hs

theorem WF.nbBegin {c : C0} (h : c.WF) (x : Nat) :
    ∃ it, c.nbBegin x = .ok it ∧
      c.At x it ((c.slotsOf x).map (fun i => (c.slotEdge i).2)) := by
  unfold C0.nbBegin
  rw [h.adj_head]
  cases hs : c.slotsOf x with
  | nil => exact ⟨_, rfl, Or.inl ⟨rfl, rfl⟩⟩
  | cons a post =>
    have hs' : c.slotsOf x = [] ++ a :: post := hs
    obtain ⟨h1, h2⟩ := h.node hs'
    have hne : c.elements.isEmpty = false := by
      cases he : c.elements with
      | nil => rw [he] at h2; simp at h2
      | cons _ _ => rfl
    simp only [List.head?_cons, hne, Bool.false_eq_true, if_false]
    rw [rd_of h1]
    refine ⟨_, rfl, Or.inr ⟨[], a, post, hs', rfl, rfl, rfl⟩⟩

theorem At.next {c : C0} (h : c.WF) {x : Nat} {it : It} {a : Nat} {l : List Nat}
    (hat : c.At x it (a :: l)) :
    it.ptr = some a ∧ ∃ it', c.nbNext it = .ok it' ∧ c.At x it' l := by
  rcases hat with ⟨h1, _⟩ | ⟨pre, b, post, h1, h2, h3, h4⟩
  · cases h1
  · rw [List.map_cons, List.cons.injEq] at h4
    obtain ⟨h4, h5⟩ := h4
    refine ⟨by rw [h3, h4], ?_⟩
    obtain ⟨_, n2⟩ := h.node h1
    unfold C0.nbNext
    rw [h2, rd_of n2]
    cases post with
    | nil => exact ⟨_, rfl, Or.inl ⟨by simpa using h5, rfl⟩⟩
    | cons q post =>
      have hs' : c.slotsOf x = (pre ++ [b]) ++ q :: post := by simp [h1]
      obtain ⟨m1, _⟩ := h.node hs'
      simp only [Res.ok_bind, List.head?_cons]
      rw [rd_of m1]
      exact ⟨_, rfl, Or.inr ⟨_, q, post, hs', rfl, rfl, h5⟩⟩

theorem At.ptr {c : C0} {x : Nat} {it : It} (hat : c.At x it []) : it.ptr = none := by
  rcases hat with ⟨_, h⟩ | ⟨pre, b, post, _, _, _, h4⟩
  · exact h
  · simp at h4

/-- The loop over `neighbour_begin(x)` … `neighbour_end()` of the buffer. -/
theorem WF.nb_all {c : C0} (h : c.WF) (x : Nat) :
    ∃ it, c.nbBegin x = .ok it ∧ ∀ f, ((c.live.filter (fun e => decide (e.1 = x))).map (·.2)).length < f →
      drive It.ptr c.nbPost f it =
        .ok ((c.live.filter (fun e => decide (e.1 = x))).map (·.2)).reverse := by
  obtain ⟨it, h1, h2⟩ := h.nbBegin x
  rw [h.slotsOf_map] at h2
  refine ⟨it, h1, ?_⟩
  intro f hf
  refine drive_eq (c.At x) (fun s hs => hs.ptr) ?_ _ f it h2 (by simpa using hf)
  intro s a l hs
  obtain ⟨e1, s', e2, e3⟩ := hs.next h
  refine ⟨e1, s', ?_, e3⟩
  unfold C0.nbPost
  rw [e1, if_neg (by simp)]; exact e2

end C0

namespace DK
variable {K : K2Impl}

/-! ## Neighbour iterator -/

theorem seek_spec (x : Nat) : ∀ (ks : List (Option K.T)) (j : Nat),
    match seek K x ks j with
    | none => treesNeigh K x ks = []
    | some (i, l) => j ≤ i ∧ l ≠ [] ∧ treesNeigh K x ks = l ++ treesNeigh K x (ks.drop (i - j + 1)) := by
  intro ks
  induction ks with
  | nil => intro j; simp [seek, treesNeigh]
  | cons o ks ih =>
    intro j
    have step : ∀ (hn : treesNeigh K x (o :: ks) = treesNeigh K x ks),
        match seek K x ks (j + 1) with
        | none => treesNeigh K x (o :: ks) = []
        | some (i, l) => j ≤ i ∧ l ≠ [] ∧
          treesNeigh K x (o :: ks) = l ++ treesNeigh K x ((o :: ks).drop (i - j + 1)) := by
      intro hn
      have := ih (j + 1)
      split
      · rename_i h; rw [h] at this; rw [hn]; exact this
      · rename_i i l h
        rw [h] at this
        obtain ⟨a, b, c⟩ := this
        refine ⟨by omega, b, ?_⟩
        have e : i - j + 1 = (i - (j + 1) + 1) + 1 := by omega
        rw [hn, c, e, List.drop_succ_cons]
    cases o with
    | none => simp only [seek]; exact step rfl
    | some t =>
      simp only [seek]
      by_cases hne : K.neigh t x ≠ []
      · rw [if_pos hne]
        refine ⟨Nat.le_refl _, hne, ?_⟩
        simp [treesNeigh]
      · rw [if_neg hne]
        refine step ?_
        simp only [treesNeigh]
        rw [not_not.1 hne]; rfl

/-- The neighbour iterator stands at `l`. -/
def NbAt (g : DK K) (x : Nat) (it : NbIt) (l : List Nat) : Prop :=
  (it.inC0 = true ∧ it.cur = none ∧ ∃ a l1, g.c0.At x it.c0it (a :: l1) ∧ it.ptr = toInt a ∧
    l = (a :: l1) ++ treesNeigh K x (g.ks.take (g.maxR + 1))) ∨
  (it.inC0 = false ∧ ∃ j a l1, it.cur = some j ∧ it.kit = a :: l1 ∧ it.ptr = toInt a ∧
    l = (a :: l1) ++ treesNeigh K x ((g.ks.take (g.maxR + 1)).drop (j + 1))) ∨
  (it.ptr = -1 ∧ l = [])

theorem nbPlace_at (g : DK K) (x : Nat) (c : C0.It) (j : Nat) (l : List Nat)
    (hl : l = treesNeigh K x ((g.ks.take (g.maxR + 1)).drop j)) :
    NbAt g x (nbPlace c (seek K x ((g.ks.take (g.maxR + 1)).drop j) j)) l := by
  have := seek_spec x ((g.ks.take (g.maxR + 1)).drop j) j
  cases hs : seek K x ((g.ks.take (g.maxR + 1)).drop j) j with
  | none =>
    rw [hs] at this
    right; right
    exact ⟨rfl, by rw [hl]; exact this⟩
  | some p =>
    obtain ⟨i, l'⟩ := p
    rw [hs] at this
    obtain ⟨h1, h2, h3⟩ := this
    cases l' with
    | nil => exact absurd rfl h2
    | cons a l1 =>
      right; left
      refine ⟨rfl, i, a, l1, rfl, rfl, rfl, ?_⟩
      rw [hl, h3, List.drop_drop]
      congr 3; omega

theorem nbBegin_at {g : DK K} (h : g.WInv) (x : Nat) :
    ∃ it l, g.nbBegin x = .ok it ∧ g.listNeighbour x = .ok l ∧ NbAt g x it l := by
  obtain ⟨c, h1, h2⟩ := h.c0wf.nbBegin x
  rw [h.c0wf.slotsOf_map] at h2
  have hl : g.listNeighbour x = .ok (((g.c0.live.filter (fun e => decide (e.1 = x))).map (·.2)).reverse
      ++ treesNeigh K x (g.ks.take (g.maxR + 1))) := by
    unfold DK.listNeighbour; rw [h.c0wf.listNeighbours_eq]; rfl
  unfold DK.nbBegin
  rw [h1]
  simp only [Res.ok_bind]
  cases hr : ((g.c0.live.filter (fun e => decide (e.1 = x))).map (·.2)).reverse with
  | nil =>
    rw [hr] at h2 hl
    rw [h2.ptr]
    refine ⟨_, _, rfl, hl, ?_⟩
    have := nbPlace_at g x c 0 (treesNeigh K x (g.ks.take (g.maxR + 1))) rfl
    simpa using this
  | cons a l1 =>
    rw [hr] at h2 hl
    obtain ⟨e1, _⟩ := h2.next h.c0wf
    rw [e1]
    exact ⟨_, _, rfl, hl, Or.inl ⟨rfl, rfl, a, l1, h2, rfl, rfl⟩⟩

theorem NbAt.next {g : DK K} (h : g.WInv) {x : Nat} {it : NbIt} {a : Nat} {l : List Nat}
    (hat : NbAt g x it (a :: l)) :
    it.ptr = toInt a ∧ ∃ it', g.nbNext x it = .ok it' ∧ NbAt g x it' l := by
  rcases hat with ⟨h1, h2, b, l1, h3, h4, h5⟩ | ⟨h1, j, b, l1, h2, h3, h4, h5⟩ | ⟨_, h5⟩
  · rw [List.cons_append, List.cons.injEq] at h5
    obtain ⟨rfl, h5⟩ := h5
    refine ⟨h4, ?_⟩
    obtain ⟨e1, c', e2, e3⟩ := h3.next h.c0wf
    unfold DK.nbNext
    rw [h1]
    have hp : g.c0.nbPost it.c0it = .ok c' := by
      unfold C0.nbPost; rw [e1, if_neg (by simp)]; exact e2
    simp only [if_true, hp, Res.ok_bind]
    cases l1 with
    | nil =>
      rw [e3.ptr]
      refine ⟨_, rfl, ?_⟩
      unfold nbNextTree
      simp only [h2]
      have := nbPlace_at g x c' 0 l (by simpa using h5)
      simpa using this
    | cons b' l2 =>
      obtain ⟨e4, _⟩ := e3.next h.c0wf
      rw [e4]
      exact ⟨_, rfl, Or.inl ⟨rfl, h2, b', l2, e3, rfl, h5⟩⟩
  · rw [List.cons_append, List.cons.injEq] at h5
    obtain ⟨rfl, h5⟩ := h5
    refine ⟨h4, ?_⟩
    unfold DK.nbNext
    rw [h1]
    simp only [Bool.false_eq_true, if_false]
    refine ⟨_, rfl, ?_⟩
    unfold nbNextTree
    simp only [h2, h3]
    cases l1 with
    | nil => exact nbPlace_at g x _ (j + 1) l (by simpa using h5)
    | cons b' l2 => exact Or.inr (Or.inl ⟨h1, j, b', l2, rfl, rfl, rfl, h5⟩)
  · cases h5

/-- Iterating over the neighbours gives `list_neighbour`, provided no neighbour is converted to the
sentinel `-1`. -/
theorem WInv.nbAll_eq {g : DK K} (h : g.WInv) (x : Nat) :
    ∃ l, g.listNeighbour x = .ok l ∧ ((∀ y ∈ l, toInt y ≠ -1) →
      ∀ f, l.length < f → g.nbAll x f = .ok (l.map toInt)) := by
  obtain ⟨it, l, h1, h2, h3⟩ := nbBegin_at h x
  refine ⟨l, h2, ?_⟩
  intro hne f hf
  unfold DK.nbAll
  rw [h1]
  simp only [Res.ok_bind]
  refine drive_eq (fun s m => ∃ l', m = l'.map toInt ∧ (∀ y ∈ l', toInt y ≠ -1) ∧ NbAt g x s l')
    ?_ ?_ _ f it ⟨l, rfl, hne, h3⟩ (by simpa using hf)
  · rintro s ⟨l', h4, _, h5⟩
    have : l' = [] := by
      cases l' with
      | nil => rfl
      | cons _ _ => simp at h4
    subst this
    rcases h5 with ⟨_, _, _, _, _, _, h⟩ | ⟨_, _, _, _, _, _, _, h⟩ | ⟨h, _⟩
    · simp at h
    · simp at h
    · unfold nbCur; rw [if_pos h]
  · rintro s a m ⟨l', h4, h5, h6⟩
    cases l' with
    | nil => simp at h4
    | cons b l' =>
      rw [List.map_cons, List.cons.injEq] at h4
      obtain ⟨e1, s', e2, e3⟩ := h6.next h
      refine ⟨?_, s', e2, l', h4.2, fun y hy => h5 y (by simp [hy]), e3⟩
      unfold nbCur
      rw [e1, if_neg (h5 b (by simp)), h4.1]

/-! ## Node iterator -/

theorem nodeAll_eq {g : DK K} (h : g.numberNodes < 2 ^ 31) (f : Nat) (hf : g.numberNodes < f) :
    g.nodeAll f = .ok ((List.range g.numberNodes).map (fun i : Nat => (i : Int))) := by
  unfold nodeAll
  refine drive_eq (fun s m => s.size = (g.numberNodes : Int) ∧ ∃ i : Nat,
      m = ((List.range g.numberNodes).drop i).map (fun i : Nat => (i : Int)) ∧
      ((i < g.numberNodes ∧ s.ptr = (i : Int)) ∨ (g.numberNodes ≤ i ∧ s.ptr = -1))) ?_ ?_ _ f _ ?_ (by simpa using hf)
  · rintro s ⟨_, i, h1, h2⟩
    rcases h2 with ⟨h2, _⟩ | ⟨_, h2⟩
    · have := congrArg List.length h1
      simp at this; omega
    · unfold nodeCur; rw [if_pos h2]
  · rintro s a m ⟨hs, i, h1, h2⟩
    rcases h2 with ⟨h2, h3⟩ | ⟨h2, _⟩
    · have hd : (List.range g.numberNodes).drop i = i :: (List.range g.numberNodes).drop (i + 1) := by
        rw [List.drop_eq_getElem_cons (by simpa using h2)]; simp
      rw [hd, List.map_cons, List.cons.injEq] at h1
      refine ⟨?_, _, rfl, ?_, i + 1, h1.2, ?_⟩
      · unfold nodeCur; rw [h3, if_neg (by omega), h1.1]
      · unfold nodeNext; split <;> exact hs
      · unfold nodeNext
        by_cases hl : i + 1 < g.numberNodes
        · left
          refine ⟨hl, ?_⟩
          rw [if_neg (by rw [h3, hs]; omega)]
          simp [h3]
        · right
          refine ⟨by omega, ?_⟩
          rw [if_pos (by rw [h3, hs]; omega)]
    · rw [List.drop_of_length_le (by simpa using h2)] at h1; cases h1
  · unfold nodeBegin
    rw [toInt_of_lt h]
    split
    · exact ⟨rfl, 0, by simp, Or.inl ⟨by omega, rfl⟩⟩
    · exact ⟨rfl, 0, by simp, Or.inr ⟨by omega, rfl⟩⟩

/-! ## Edge iterator -/

/-- What the trees from level `i` on still have to yield. -/
def rest (cur : List (Option (List Edge))) (i : Nat) : List Edge := ((cur.drop i).map (·.getD [])).flatten


theorem firstFrom_none {cur : List (Option (List Edge))} {i : Nat} (h : firstFrom cur i = none) :
    rest cur i = [] := by
  unfold firstFrom at h
  rw [List.findSome?_eq_none_iff] at h
  unfold rest
  rw [List.flatten_eq_nil_iff]
  intro l hl
  obtain ⟨o, ho, rfl⟩ := List.mem_map.1 hl
  cases o with
  | none => rfl
  | some l =>
    exfalso
    obtain ⟨k, hk⟩ := List.getElem?_of_mem ho
    rw [List.getElem?_drop] at hk
    have hlt : i + k < cur.length := by
      rw [List.getElem?_eq_some_iff] at hk; exact hk.1
    have := h (i + k) (by
      rw [List.mem_iff_getElem?]
      exact ⟨k, by rw [List.getElem?_drop, List.getElem?_range hlt]⟩)
    rw [hk] at this
    simp at this

theorem firstFrom_some {cur : List (Option (List Edge))} {i j : Nat} {l : List Edge}
    (h : firstFrom cur i = some (j, l)) :
    i ≤ j ∧ cur[j]? = some (some l) ∧ rest cur i = l ++ rest cur (j + 1) := by
  -- induct on the distance to the end
  have key : ∀ d i, cur.length = i + d → firstFrom cur i = some (j, l) →
      i ≤ j ∧ cur[j]? = some (some l) ∧ rest cur i = l ++ rest cur (j + 1) := by
    intro d
    induction d with
    | zero =>
      intro i hi h
      unfold firstFrom at h
      rw [List.drop_of_length_le (by simp; omega)] at h
      simp at h
    | succ d ih =>
      intro i hi h
      have hlt : i < cur.length := by omega
      have hd : (List.range cur.length).drop i = i :: (List.range cur.length).drop (i + 1) := by
        rw [List.drop_eq_getElem_cons (by simpa using hlt)]; simp
      have hdc : cur.drop i = cur[i] :: cur.drop (i + 1) := List.drop_eq_getElem_cons hlt
      unfold firstFrom at h
      rw [hd, List.findSome?_cons, List.getElem?_eq_getElem hlt] at h
      cases hc : cur[i] with
      | none =>
        rw [hc] at h
        simp only [Option.join_some, Option.map_none] at h
        obtain ⟨a, b, c⟩ := ih (i + 1) (by omega) h
        refine ⟨by omega, b, ?_⟩
        rw [← c]
        unfold rest
        rw [hdc, hc]; simp
      | some l' =>
        rw [hc] at h
        simp only [Option.join_some, Option.map_some, Option.some.injEq, Prod.mk.injEq] at h
        obtain ⟨rfl, rfl⟩ := h
        refine ⟨Nat.le_refl _, by rw [List.getElem?_eq_getElem hlt, hc], ?_⟩
        unfold rest
        rw [hdc, hc]; simp
  by_cases hle : i ≤ cur.length
  · exact key (cur.length - i) i (by omega) h
  · exfalso
    unfold firstFrom at h
    rw [List.drop_of_length_le (by simp; omega)] at h
    simp at h

theorem rest_set {cur : List (Option (List Edge))} {j k : Nat} (o : Option (List Edge)) (h : j < k) :
    rest (cur.set j o) k = rest cur k := by
  unfold rest
  rw [List.drop_set_of_lt h]

theorem rest_set_self {cur : List (Option (List Edge))} {j : Nat} (l : List Edge) (h : j < cur.length) :
    rest (cur.set j (some l)) j = l ++ rest cur (j + 1) := by
  unfold rest
  rw [List.drop_eq_getElem_cons (by simpa using h)]
  rw [List.drop_set_of_lt (by omega)]
  simp

/-- The first `size()` slots of the buffer: what the edge iterator reads from it. -/
def slots (c : C0) : List Edge := (List.range c.size).map c.slotEdge

/-- No level holds a tree without edges. -/
def NoEmptyTree (g : DK K) : Prop := ∀ t, some t ∈ g.ks → K.edges t ≠ []

/-- The edge iterator stands at `l`. -/
def EAt (it : EIt) (l : List Edge) : Prop :=
  (∃ (i : Nat) (a : Edge) (l1 : List Edge), it.dist = (i : Int) ∧ i < it.c0.size ∧ it.ptr = a ∧ (slots it.c0).drop i = a :: l1 ∧
    (∀ o ∈ it.cur, o ≠ some []) ∧ l = a :: l1 ++ rest it.cur 0) ∨
  ((it.c0.size : Int) ≤ it.dist ∧ ∃ a l1 j, firstFrom it.cur it.i = some (j, a :: l1) ∧ it.ptr = a ∧
    (∀ k, j < k → it.cur[k]? ≠ some (some [])) ∧ l = a :: l1 ++ rest it.cur (j + 1)) ∨
  (it.ptr = maxEdge ∧ l = [])

theorem slots_get {c : C0} (h : c.WF) {i : Nat} (hi : i < c.size) :
    c.elementsNodes[i]? = some (some (c.slotEdge i)) := by
  refine h.en_lo i ?_
  have := h.size_eq; have := h.marked_eq; have := h.live_length
  omega

theorem slots_drop {c : C0} {i : Nat} (hi : i < c.size) :
    (slots c).drop i = c.slotEdge i :: (slots c).drop (i + 1) := by
  unfold slots
  rw [List.drop_eq_getElem_cons (by simpa using hi)]; simp

theorem EAt.next {it : EIt} (h : it.c0.WF) {a : Edge} {l : List Edge} (hat : EAt it (a :: l)) :
    it.ptr = a ∧ ∃ it', eNext it = .ok it' ∧ it'.c0 = it.c0 ∧ EAt it' l := by
  rcases hat with ⟨i, b, l1, h1, h2, h3, h4, h5, h6⟩ | ⟨h1, b, l1, j, h2, h3, h4, h5⟩ | ⟨_, h5⟩
  · rw [List.cons_append, List.cons.injEq] at h6
    obtain ⟨rfl, h6⟩ := h6
    refine ⟨h3, ?_⟩
    rw [slots_drop h2, List.cons.injEq] at h4
    obtain ⟨h4, h7⟩ := h4
    unfold eNext
    rw [h1, if_pos (by exact_mod_cast h2)]
    by_cases hlt : i + 1 < it.c0.size
    · rw [if_pos (by exact_mod_cast hlt)]
      have hn : ((i : Int) + 1).toNat = i + 1 := by omega
      rw [hn, rd_of (slots_get h hlt)]
      refine ⟨_, rfl, rfl, ?_⟩
      left
      have hd := slots_drop hlt
      refine ⟨i + 1, it.c0.slotEdge (i + 1), (slots it.c0).drop (i + 2), by push_cast; rfl, hlt, rfl, hd,
        h5, ?_⟩
      rw [← hd, h7]; exact h6
    · rw [if_neg (by exact_mod_cast hlt)]
      have hnil : l1 = [] := by
        rw [← h7, List.drop_of_length_le (by simp [slots]; omega)]
      rw [hnil, List.nil_append] at h6
      cases hf : firstFrom it.cur 0 with
      | none =>
        refine ⟨_, rfl, rfl, Or.inr (Or.inr ⟨rfl, ?_⟩)⟩
        rw [h6]; exact firstFrom_none hf
      | some p =>
        obtain ⟨j, lj⟩ := p
        obtain ⟨_, f2, f3⟩ := firstFrom_some hf
        have hm := List.mem_of_getElem? f2
        cases lj with
        | nil => exact absurd rfl (h5 _ hm)
        | cons c lj =>
          refine ⟨_, rfl, rfl, ?_⟩
          right; left
          refine ⟨by show (it.c0.size : Int) ≤ (i : Int) + 1; omega, c, lj, j, ?_, rfl, ?_, ?_⟩
          · -- firstFrom at j finds j itself
            show firstFrom it.cur j = _
            have hjl : j < it.cur.length := (List.getElem?_eq_some_iff.1 f2).1
            unfold firstFrom
            rw [List.drop_eq_getElem_cons (by simpa using hjl), List.findSome?_cons]
            simp [f2]
          · intro k _ hk
            exact h5 _ (List.mem_of_getElem? hk) rfl
          · rw [h6, f3]
  · rw [List.cons_append, List.cons.injEq] at h5
    obtain ⟨rfl, h5⟩ := h5
    refine ⟨h3, ?_⟩
    unfold eNext
    rw [if_neg (by omega), h2]
    obtain ⟨f1, f2, f3⟩ := firstFrom_some h2
    have hjl : j < it.cur.length := (List.getElem?_eq_some_iff.1 f2).1
    cases l1 with
    | nil =>
      simp only
      cases hf : firstFrom it.cur (j + 1) with
      | none =>
        refine ⟨_, rfl, rfl, Or.inr (Or.inr ⟨rfl, ?_⟩)⟩
        rw [h5, firstFrom_none hf]; rfl
      | some p =>
        obtain ⟨j', lj⟩ := p
        obtain ⟨g1, g2, g3⟩ := firstFrom_some hf
        cases lj with
        | nil => exact absurd g2 (h4 j' (by omega))
        | cons c lj =>
          refine ⟨_, rfl, rfl, ?_⟩
          right; left
          refine ⟨h1, c, lj, j', ?_, rfl, ?_, ?_⟩
          · show firstFrom (it.cur.set j (some [])) j' = _
            have hjl' : j' < it.cur.length := (List.getElem?_eq_some_iff.1 g2).1
            unfold firstFrom
            rw [List.length_set, List.drop_eq_getElem_cons (by simpa using hjl'), List.findSome?_cons]
            have : (it.cur.set j (some []))[j']? = some (some (c :: lj)) := by
              rw [List.getElem?_set_ne (by omega)]; exact g2
            simp [this]
          · intro k hk
            show (it.cur.set j (some []))[k]? ≠ _
            rw [List.getElem?_set_ne (by omega)]
            exact h4 k (by omega)
          · rw [h5]
            show [] ++ rest it.cur (j + 1) = c :: lj ++ rest (it.cur.set j (some [])) (j' + 1)
            rw [rest_set _ (by omega), List.nil_append, g3]
    | cons c l2 =>
      refine ⟨_, rfl, rfl, ?_⟩
      right; left
      refine ⟨h1, c, l2, j, ?_, rfl, ?_, ?_⟩
      · show firstFrom (it.cur.set j (some (c :: l2))) j = _
        unfold firstFrom
        rw [List.length_set, List.drop_eq_getElem_cons (by simpa using hjl), List.findSome?_cons]
        have : (it.cur.set j (some (c :: l2)))[j]? = some (some (c :: l2)) := by
          rw [List.getElem?_set_self hjl]
        simp [this]
      · intro k hk
        show (it.cur.set j (some (c :: l2)))[k]? ≠ _
        rw [List.getElem?_set_ne (by omega)]
        exact h4 k hk
      · rw [h5]
        show _ = c :: l2 ++ rest (it.cur.set j (some (c :: l2))) (j + 1)
        rw [rest_set _ (by omega)]
  · cases h5

theorem rest_flat (ks : List (Option K.T)) : rest (ks.map (Option.map K.edges)) 0 = flat K ks := by
  unfold rest
  rw [List.drop_zero]
  induction ks with
  | nil => rfl
  | cons o ks ih =>
    cases o with
    | none => simpa using ih
    | some t => simpa using ih

/-- Where `edge_begin()` stands (`_i = 0`): before the first `size()` slots of the buffer and the levels. -/
theorem WInv.eBegin_at {g : DK K} (h : g.WInv) (hnv : g.nv ≠ 0) (hne : g.NoEmptyTree) :
    ∃ it, g.eBegin 0 = .ok it ∧ it.c0 = g.c0 ∧ it.cur = g.ks.map (Option.map K.edges) ∧
      EAt it (slots g.c0 ++ flat K g.ks) := by
  have hcur : ∀ o ∈ g.ks.map (Option.map K.edges), o ≠ some [] := by
    intro o ho
    obtain ⟨t, ht, rfl⟩ := List.mem_map.1 ho
    cases t with
    | none => simp
    | some t => simp only [Option.map_some, ne_eq, Option.some.injEq]; exact hne t ht
  unfold eBegin
  simp only
  rw [if_neg hnv]
  by_cases hsz : g.c0.size > 0
  · rw [if_pos hsz, rd_of (slots_get h.c0wf hsz)]
    refine ⟨_, rfl, rfl, rfl, ?_⟩
    left
    have hd := slots_drop hsz
    refine ⟨0, g.c0.slotEdge 0, (slots g.c0).drop 1, rfl, hsz, rfl, hd, hcur, ?_⟩
    rw [← hd, rest_flat]; simp
  · rw [if_neg hsz]
    have hsl : slots g.c0 = [] := by
      unfold slots
      have : g.c0.size = 0 := by omega
      rw [this]; rfl
    rw [hsl, List.nil_append, ← rest_flat]
    cases hf : firstFrom (g.ks.map (Option.map K.edges)) 0 with
    | none =>
      exact ⟨_, rfl, rfl, rfl, Or.inr (Or.inr ⟨rfl, firstFrom_none hf⟩)⟩
    | some p =>
      obtain ⟨j, l⟩ := p
      obtain ⟨_, f2, f3⟩ := firstFrom_some hf
      cases l with
      | nil => exact absurd rfl (hcur _ (List.mem_of_getElem? f2))
      | cons a l =>
        refine ⟨_, rfl, rfl, rfl, Or.inr (Or.inl ⟨by show (g.c0.size : Int) ≤ 0; omega, a, l, j, hf, rfl, ?_, f3⟩)⟩
        intro k _ hk
        exact hcur _ (List.mem_of_getElem? hk) rfl

/-- Exactly what a loop over the edges yields (first loop on the object, or a loop on a copy of the
iterator: `_i = 0`): the first `size()` slots of the buffer, then the levels. -/
theorem WInv.eAll_eq {g : DK K} (h : g.WInv) (hnv : g.nv ≠ 0) (hne : g.NoEmptyTree)
    (hs : maxEdge ∉ slots g.c0 ++ flat K g.ks) (f : Nat)
    (hf : (slots g.c0 ++ flat K g.ks).length < f) :
    g.eAll 0 f = .ok (slots g.c0 ++ flat K g.ks) := by
  obtain ⟨it, b1, b2, _, b3⟩ := h.eBegin_at hnv hne
  unfold eAll
  rw [b1]
  simp only [Res.ok_bind]
  refine drive_eq (fun s m => s.c0 = g.c0 ∧ maxEdge ∉ m ∧ EAt s m) ?_ ?_ _ f it ⟨b2, hs, b3⟩ hf
  · rintro s ⟨_, _, hat⟩
    rcases hat with ⟨_, _, _, _, _, _, _, _, h⟩ | ⟨_, _, _, _, _, _, _, h⟩ | ⟨h, _⟩
    · simp at h
    · simp at h
    · unfold eCur; rw [if_pos h]
  · rintro s a m ⟨h1, h2, hat⟩
    obtain ⟨e1, s', e2, e3, e4⟩ := hat.next (by rw [h1]; exact h.c0wf)
    refine ⟨?_, s', e2, by rw [e3, h1], fun hh => h2 (by simp [hh]), e4⟩
    unfold eCur
    rw [e1, if_neg]
    intro hh; exact h2 (by simp [hh])

/-- Without erased slots the buffer part is the buffer's content. -/
theorem slots_eq_live {c : C0} (h : c.WF) (hm : c.marked = 0) : slots c = c.live := by
  have h1 := h.size_eq; have h2 := h.marked_eq; have h3 := h.live_length
  have hn : c.size = c.nElements := by omega
  unfold slots C0.live
  rw [hn]
  congr 1
  unfold C0.liveSlots at *
  have : ((List.range c.nElements).filter c.isLive).length = (List.range c.nElements).length := by
    rw [List.length_range]; omega
  exact (List.filter_sublist.eq_of_length this).symm

end DK
end DK2
