import Verif.PropsGraph2
import Verif.PropsIter
/-!
# Changing the graph inside a loop over `neighbour_begin(x)` … `neighbour_end()`

The neighbour iterator keeps a pointer to the buffer and to the graph (DKtreeNeighbourIterator.hpp:23-24,
Container0NeighIterator.hpp:22), so every `++` reads the graph as it is at that moment.
-/

namespace DK2

namespace DK
variable {K : K2Impl}

/-- The user's loop `for (it = g.neighbour_begin(x); it != g.neighbour_end(); ++it) { … }` whose `j`-th
round, on the value `a = *it`, performs the updates `body j a` on the same graph.  `++it` reads the
updated graph (DKtreeNeighbourIterator.hpp:67-118).  Simplified: an iterator of the external `k2_tree`
(`kit`) is the rest of the sequence it had when it was created; in the code it points into a tree, which
an update inside the loop may change or free.  The theorems below either never change a tree while such
an iterator is in use, or use an execution in which there is none. -/
def nbLoop (S : Sizing) (x : Nat) (body : Nat → Int → List Op) :
    Nat → Nat → DK K → NbIt → Res (List Int × DK K)
  | 0, _, _, _ => .diverge
  | f + 1, j, g, it =>
    match nbCur it with
    | none => .ok ([], g)
    | some a => do
      let g' ← runFrom S g (body j a)
      let it' ← g'.nbNext x it
      let r ← nbLoop S x body f (j + 1) g' it'
      .ok (a :: r.1, r.2)

/-- The whole loop: the visited values and the graph afterwards. -/
def nbFor (S : Sizing) (x : Nat) (body : Nat → Int → List Op) (fuel : Nat) (g : DK K) :
    Res (List Int × DK K) := do
  let it ← g.nbBegin x
  nbLoop S x body fuel 0 g it

end DK

namespace C0

/-- The live slots of `x` before an insertion stay in place: at most one slot is put in front. -/
theorem slotsOf_grow {c c' : C0} (hn : c'.nElements = c.nElements + 1)
    (hf : ∀ i, i < c.nElements → c'.edgeFree[i]? = c.edgeFree[i]?)
    (hs : ∀ i, i < c.nElements → c'.slotEdge i = c.slotEdge i) (x : Nat) :
    ∃ p, c'.slotsOf x = p ++ c.slotsOf x := by
  have hL : ∃ q, c'.liveSlots = c.liveSlots ++ q := by
    refine ⟨[c.nElements].filter c'.isLive, ?_⟩
    unfold liveSlots
    rw [hn, List.range_succ, List.filter_append]
    congr 1
    apply List.filter_congr
    intro i hi
    unfold isLive
    rw [hf i (by simpa using hi)]
  obtain ⟨q, hL⟩ := hL
  refine ⟨(q.filter (fun i => decide ((c'.slotEdge i).1 = x))).reverse, ?_⟩
  unfold slotsOf
  rw [hL, List.filter_append, List.reverse_append]
  congr 2
  apply List.filter_congr
  intro i hi
  rw [hs i (mem_liveSlots.1 hi).1]

theorem insertSlot_keeps {c : C0} (h : c.WF) {e : Edge}
    (hn : c.nElements < c.maxEdges) {c' : C0} (hc : c.insertSlot e = .ok c') :
    c'.edgeFree = c.edgeFree ∧ ∀ i, i < c.nElements → c'.slotEdge i = c.slotEdge i := by
  have hf := h.ef_hi c.nElements (Nat.le_refl _) hn
  have hlen := h.len_en
  have hlen2 := h.len_el
  have key : ∀ c' : C0, c'.elementsNodes = c.elementsNodes.set c.nElements (some e) →
      ∀ i, i < c.nElements → c'.slotEdge i = c.slotEdge i := by
    intro c' h5 i hi
    rw [slotEdge_set (by omega) h5, if_neg (by omega)]
  unfold insertSlot at hc
  simp only [rd_of hf, Res.ok_bind, use, wr_of (show c.nElements < c.elementsNodes.length by omega)] at hc
  have hfresh := h.el_hi c.nElements (Nat.le_refl _) hn
  cases ha : c.adjMap e.1 with
  | none =>
    rw [ha] at hc
    simp only [Res.ok.injEq] at hc
    subst hc
    exact ⟨rfl, key _ rfl⟩
  | some hd =>
    rw [ha] at hc
    simp only [rd_of hfresh, Res.ok_bind, wr_of (show c.nElements < c.elements.length by omega)] at hc
    obtain ⟨nh, _, hc⟩ := Res.bind_eq_ok.1 hc
    obtain ⟨el, _, hc⟩ := Res.bind_eq_ok.1 hc
    simp only [Res.ok.injEq] at hc
    subst hc
    exact ⟨rfl, key _ rfl⟩

/-- Inserting an absent edge leaves an iterator over the buffer where it is. -/
theorem At.insert {S : Sizing} {c : C0} (h : c.WF) {e : Edge} {m : Nat} (he : e ∉ c.live)
    (hr : c.room S m) {c' : C0} (hc : c.insert S e m = .ok c') {x : Nat} {it : It} {l : List Nat}
    (hat : c.At x it l) : c'.At x it l := by
  have hx := h.not_mem_live.1 he
  have hlen := h.len_el
  unfold room at hr
  obtain ⟨c1, b1, b2, b3, b4, _⟩ := insert_absent h he hr
  rw [hc] at b1; cases b1
  have key : (∀ i, i < c.nElements → c'.edgeFree[i]? = c.edgeFree[i]?) ∧
      ∀ i, i < c.nElements → c'.slotEdge i = c.slotEdge i := by
    simp only [C0.insert, hx, Option.isSome_none, Bool.false_eq_true, if_false] at hc
    by_cases hge : c.nElements ≥ c.elements.length
    · rw [if_pos hge] at hc
      obtain ⟨h1, h2, h3, h4, h5, h6, h7⟩ := h.resize_spec (S.maxsz (max c.nVertices m) 0)
      obtain ⟨k1, k2⟩ := insertSlot_keeps h1 (by rw [h3, h5]; exact hr) hc
      have hnle := h.n_le
      have hrs : (∀ i, i < c.nElements →
          (c.resize (S.maxsz (max c.nVertices m) 0)).edgeFree[i]? = c.edgeFree[i]?) ∧
          ∀ i, i < c.nElements → (c.resize (S.maxsz (max c.nVertices m) 0)).slotEdge i = c.slotEdge i := by
        unfold resize
        by_cases hm : S.maxsz (max c.nVertices m) 0 > c.maxEdges
        · rw [if_pos hm]
          constructor
          · intro i hi
            simp only
            rw [List.getElem?_mapIdx, getElem?_vresize (by rw [h.len_ef]; omega) (by omega)]
            rw [if_pos (by rw [h.len_ef]; omega)]
            simp [Nat.not_le.2 hi]
          · intro i hi
            unfold slotEdge
            simp only
            rw [getElem?_vresize (by rw [h.len_en]; omega) (by omega)]
            rw [if_pos (by rw [h.len_en]; omega)]
        · rw [if_neg hm]; exact ⟨fun _ _ => rfl, fun _ _ => rfl⟩
      refine ⟨fun i hi => ?_, fun i hi => ?_⟩
      · rw [k1]; exact hrs.1 i hi
      · rw [k2 i (by omega)]; exact hrs.2 i hi
    · rw [if_neg hge] at hc
      obtain ⟨k1, k2⟩ := insertSlot_keeps h (by omega) hc
      exact ⟨fun i _ => by rw [k1], k2⟩
  rcases hat with ⟨h1, h2⟩ | ⟨pre, a, post, h1, h2, h3, h4⟩
  · exact Or.inl ⟨h1, h2⟩
  · obtain ⟨p, hp⟩ := slotsOf_grow b4 key.1 key.2 x
    have hlt : ∀ i ∈ a :: post, i < c.nElements := by
      intro i hi
      have : i ∈ c.slotsOf x := by rw [h1]; exact List.mem_append_right _ hi
      exact (mem_liveSlots.1 (mem_slotsOf.1 this).1).1
    refine Or.inr ⟨p ++ pre, a, post, by rw [hp, h1, List.append_assoc], h2, ?_, ?_⟩
    · rw [key.2 a (hlt a (by simp))]; exact h3
    · rw [h4]
      apply List.map_congr_left
      intro i hi
      rw [key.2 i (hlt i hi)]

end C0

namespace DK
variable {K : K2Impl}

/-- An insertion that does not flush the buffer leaves every neighbour iterator where it is. -/
theorem NbAt.addEdge (hK : K.Lawful) (hF : K.ForcedPure) (S : Sizing) {g g' : DK K} (hi : g.Inv) {e : Edge}
    (he : InRange g.nv e) (hs : e ∈ g.edgesOf ∨ g.c0.size < S.maxsz (max g.nv g.nTotal) 0)
    (hr : g.addEdge S e = .ok g') {x : Nat} {it : NbIt} {l : List Nat} (hat : NbAt g x it l) :
    NbAt g' x it l ∧ g'.c0.size ≤ g.c0.size + 1 ∧ g.nTotal ≤ g'.nTotal ∧
      g'.ks = g.ks := by
  unfold DK.addEdge at hr
  rw [containsForced_pure hF, hi.contains_eq hK he] at hr
  simp only [Res.ok_bind] at hr
  by_cases hm : e ∈ g.edgesOf
  · simp only [hm, decide_true, if_true] at hr
    cases hr
    exact ⟨hat, by omega, Nat.le_refl _, rfl⟩
  · simp only [hm, decide_false, Bool.false_eq_true, if_false] at hr
    have hlt : g.c0.size < S.maxsz (max g.nv g.nTotal) 0 := hs.resolve_left hm
    rw [if_pos hlt] at hr
    obtain ⟨c', hc, hr⟩ := Res.bind_eq_ok.1 hr
    cases hr
    have hl : e ∉ g.c0.live := fun hh => hm (List.mem_append_left _ hh)
    have hroom : g.c0.room S g.nTotal := by
      by_contra hno
      rw [C0.insert_noroom hi.c0wf hl hno] at hc
      cases hc
    obtain ⟨c1, a1, a2, a3, a4, a5, a6⟩ := C0.insert_absent hi.c0wf hl hroom
    rw [hc] at a1; cases a1
    refine ⟨?_, ?_, by simp, rfl⟩
    · rcases hat with ⟨h1, h2, b, l1, h3, h4, h5⟩ | h | h
      · exact Or.inl ⟨h1, h2, b, l1, h3.insert hi.c0wf hl hroom hc, h4, h5⟩
      · exact Or.inr (Or.inl h)
      · exact Or.inr (Or.inr h)
    · simp only
      rw [a2.size_eq, hi.c0wf.size_eq, a3]; simp

/-- The edges inserted by the loop, in order, when it visits the values `l` from round `j` on. -/
def bodies (body : Nat → Int → List Edge) : Nat → List Int → List Edge
  | _, [] => []
  | j, a :: l => body j a ++ bodies body (j + 1) l

/-- Insertions that fit into the buffer leave every neighbour iterator where it is. -/
theorem NbAt.inserts (hK : K.Lawful) (hF : K.ForcedPure) {S : Sizing} (hT : S.Top) {n : Nat} (h2 : 2 ≤ n)
    (hM : S.MonoFrom n) : ∀ (bs : List Edge) {g : DK K} {G : Edge → Prop}, g.Fresh → Exact g G → g.nv = n →
      (∀ e ∈ bs, InRange n e) → g.c0.size + bs.length ≤ S.maxsz (max n g.nTotal) 0 →
      ∃ g' : DK K, runFrom S g (inserts bs) = .ok g' ∧ g'.Fresh ∧ g'.nv = n ∧
        Exact g' (fun e => e ∈ bs ∨ G e) ∧ g'.c0.size ≤ g.c0.size + bs.length ∧ g.nTotal ≤ g'.nTotal ∧
        g'.ks = g.ks ∧ ∀ x it l, NbAt g x it l → NbAt g' x it l := by
  intro bs
  induction bs with
  | nil =>
    intro g G hf hx hnv _ _
    refine ⟨g, rfl, hf, hnv, ?_, by simp, Nat.le_refl _, rfl, fun _ _ _ h => h⟩
    refine ⟨hx.inv, fun e => ?_, hx.cnt, hx.above⟩
    rw [hx.mem]; simp
  | cons e bs ih =>
    intro g G hf hx hnv hr hb
    have he : InRange g.nv e := by rw [hnv]; exact hr e (by simp)
    obtain ⟨g1, h3, hf1⟩ := addEdge_total hK hF hT hx.inv hx.cnt hf he (by omega)
    obtain ⟨hx1, hnv1⟩ := hx.step hK hF S (o := .add e) he (by intro e' h; cases h) h3
    simp only [List.length_cons] at hb
    have hlt : g.c0.size < S.maxsz (max g.nv g.nTotal) 0 := by rw [hnv]; omega
    have hno := fun x it l => NbAt.addEdge hK hF S hx.inv he (Or.inr hlt) h3 (x := x) (it := it) (l := l)
    have h4 := hno 0 ⟨-1, ⟨none, 0⟩, false, none, []⟩ [] (Or.inr (Or.inr ⟨rfl, rfl⟩))
    have hmono := hM (max n g.nTotal) (max n g1.nTotal) (by omega) (by have := h4.2.2.1; omega)
    obtain ⟨g2, k1, k2, k3, k4, k5, k6, k8, k7⟩ := ih hf1 hx1 (by rw [hnv1, hnv])
      (fun e' h => hr e' (by simp [h])) (by have := h4.2.1; omega)
    refine ⟨g2, ?_, k2, k3, ?_, ?_, ?_, by rw [k8, h4.2.2.2], ?_⟩
    · show (g.addEdge S e >>= fun g' => runFrom S g' (DK.inserts bs)) = .ok g2
      rw [h3]; exact k1
    · refine ⟨k4.inv, fun e' => ?_, k4.cnt, k4.above⟩
      rw [k4.mem]
      show e' ∈ bs ∨ e' = e ∨ G e' ↔ _
      rw [List.mem_cons]; tauto
    · have := h4.2.1; simp only [List.length_cons]; omega
    · have := h4.2.2.1; omega
    · intro x it l h
      exact k7 x it l (hno x it l h).1

theorem runFrom_two (S : Sizing) {g g1 : DK K} {a b : List Op} (h : runFrom S g a = .ok g1) :
    runFrom S g (a ++ b) = runFrom S g1 b := by
  rw [runFrom_append, h]; rfl

/-- The loop over the neighbours while the bodies insert edges that fit into the buffer. -/
theorem nbLoop_inserts (hK : K.Lawful) (hF : K.ForcedPure) {S : Sizing} (hT : S.Top) {n : Nat} (h2 : 2 ≤ n)
    (hM : S.MonoFrom n) (x : Nat) (body : Nat → Int → List Edge) :
    ∀ (l : List Nat) (j f : Nat) {g : DK K} {G : Edge → Prop} {it : NbIt}, g.Fresh → Exact g G → g.nv = n →
      NbAt g x it l → (∀ y ∈ l, toInt y ≠ -1) → l.length < f →
      (∀ e ∈ bodies body j (l.map toInt), InRange n e) →
      g.c0.size + (bodies body j (l.map toInt)).length ≤ S.maxsz (max n g.nTotal) 0 →
      ∃ g' : DK K, nbLoop S x (fun j a => inserts (body j a)) f j g it = .ok (l.map toInt, g') ∧
        runFrom S g (inserts (bodies body j (l.map toInt))) = .ok g' := by
  intro l
  induction l with
  | nil =>
    intro j f g G it hf hx hnv hat _ hfu _ _
    obtain ⟨f, rfl⟩ : ∃ f', f = f' + 1 := ⟨f - 1, by omega⟩
    have hp : it.ptr = -1 := by
      rcases hat with ⟨_, _, _, _, _, _, h⟩ | ⟨_, _, _, _, _, _, _, h⟩ | ⟨h, _⟩
      · simp at h
      · simp at h
      · exact h
    refine ⟨g, ?_, rfl⟩
    unfold nbLoop nbCur
    rw [if_pos hp]; rfl
  | cons y l ih =>
    intro j f g G it hf hx hnv hat hne hfu hr hb
    obtain ⟨f, rfl⟩ : ∃ f', f = f' + 1 := ⟨f - 1, by omega⟩
    simp only [List.map_cons, bodies] at hr hb ⊢
    rw [List.length_append] at hb
    obtain ⟨g1, k1, k2, k3, k4, k5, k6, _, k7⟩ := NbAt.inserts hK hF hT h2 hM (body j (toInt y)) hf hx hnv
      (fun e h => hr e (List.mem_append_left _ h)) (by omega)
    obtain ⟨e1, it', e2, e3⟩ := (k7 x it _ hat).next k4.inv.toWInv
    have hmono := hM (max n g.nTotal) (max n g1.nTotal) (by omega) (by omega)
    obtain ⟨g2, m1, m2⟩ := ih (j + 1) f k2 k4 k3 e3 (fun z h => hne z (by simp [h]))
      (by simpa using hfu) (fun e h => hr e (List.mem_append_right _ h)) (by omega)
    refine ⟨g2, ?_, ?_⟩
    · unfold nbLoop
      have hc : nbCur it = some (toInt y) := by
        unfold nbCur; rw [e1, if_neg (hne y (by simp))]
      rw [hc]
      simp only [k1, Res.ok_bind, e2, m1]
    · have : DK.inserts (body j (toInt y) ++ bodies body (j + 1) (l.map toInt)) =
          DK.inserts (body j (toInt y)) ++ DK.inserts (bodies body (j + 1) (l.map toInt)) := by
        simp [DK.inserts]
      rw [this, runFrom_two S k1]; exact m2

/-! ## Deleting the visited edge -/

end DK

namespace C0

/-- The pointer surgery of `erase` does not touch the erased node itself. -/
theorem unlink_self {c : C0} {x i : Nat} {n : NodeEdge} (hn : c.elements[i]? = some n)
    (h1 : n.next ≠ some i) (h2 : n.prev ≠ some i) {r : List NodeEdge × (Nat → Option Nat)}
    (hr : c.unlink x i = .ok r) : r.1[i]? = some n := by
  unfold unlink at hr
  rw [rd_of hn] at hr
  simp only [Res.ok_bind] at hr
  have hw : ∀ {l l' : List NodeEdge} {q : Nat} {v : NodeEdge}, wr l q v = .ok l' → q ≠ i →
      l'[i]? = l[i]? := by
    intro l l' q v h hq
    unfold wr at h
    split at h
    · cases h; exact List.getElem?_set_ne hq
    · cases h
  cases hx : n.next with
  | none =>
    cases hp : n.prev with
    | none => rw [hx, hp] at hr; cases hr; exact hn
    | some p =>
      rw [hx, hp] at hr
      obtain ⟨_, _, hr⟩ := Res.bind_eq_ok.1 hr
      obtain ⟨_, hw1, hr⟩ := Res.bind_eq_ok.1 hr
      cases hr
      rw [hw hw1 (by rintro rfl; exact h2 hp)]; exact hn
  | some q =>
    have hq : q ≠ i := by rintro rfl; exact h1 hx
    cases hp : n.prev with
    | none =>
      rw [hx, hp] at hr
      obtain ⟨_, _, hr⟩ := Res.bind_eq_ok.1 hr
      obtain ⟨_, hw1, hr⟩ := Res.bind_eq_ok.1 hr
      cases hr
      rw [hw hw1 hq]; exact hn
    | some p =>
      rw [hx, hp] at hr
      obtain ⟨_, _, hr⟩ := Res.bind_eq_ok.1 hr
      obtain ⟨_, hw1, hr⟩ := Res.bind_eq_ok.1 hr
      obtain ⟨_, _, hr⟩ := Res.bind_eq_ok.1 hr
      obtain ⟨_, hw2, hr⟩ := Res.bind_eq_ok.1 hr
      cases hr
      rw [hw hw2 (by rintro rfl; exact h2 hp), hw hw1 hq]; exact hn

/-- Erasing the edge under the iterator: the erased node still leads to the rest of the chain. -/
theorem erase_keeps {c : C0} (h : c.WF) {x a : Nat} {pre post : List Nat}
    (hs : c.slotsOf x = pre ++ a :: post) {b : Bool} {c' : C0} (hc : c.erase (c.slotEdge a) = .ok (b, c')) :
    b = true ∧ c'.slotsOf x = pre ++ post ∧ (∀ i, c'.slotEdge i = c.slotEdge i) ∧
      c'.elements[a]? = some ⟨post.head?, pre.getLast?⟩ := by
  have ha : a ∈ c.slotsOf x := by rw [hs]; simp
  obtain ⟨hal, hax⟩ := mem_slotsOf.1 ha
  have hlst := (h.lst (c.slotEdge a) a).2 ⟨hal, rfl⟩
  have hlt := (mem_liveSlots.1 hal).1
  have hnle := h.n_le
  have hief : a < c.edgeFree.length := by rw [h.len_ef]; omega
  have hnode := (h.node hs).2
  have hnd := c.slotsOf_nodup x
  rw [hs] at hnd
  have hnd' := List.nodup_append.1 hnd
  unfold erase at hc
  rw [hlst] at hc
  obtain ⟨r, hu, hc⟩ := Res.bind_eq_ok.1 hc
  rw [wr_of hief] at hc
  simp only [Res.ok_bind, Res.ok.injEq, Prod.mk.injEq] at hc
  obtain ⟨hb, hc⟩ := hc
  have hS : ∀ i, c'.slotEdge i = c.slotEdge i := by intro i; subst hc; rfl
  refine ⟨hb.symm, ?_, hS, ?_⟩
  · have hL : c'.liveSlots = c.liveSlots.filter (fun j => decide (j ≠ a)) :=
      filter_liveSlots (by subst hc; rfl) hief (by subst hc; rfl)
    have hcomm : c'.slotsOf x = (c.slotsOf x).filter (fun j => decide (j ≠ a)) := by
      unfold slotsOf
      rw [hL, List.filter_reverse, List.filter_filter, List.filter_filter]
      congr 1
      apply List.filter_congr
      intro j _
      rw [hS, Bool.and_comm]
    rw [hcomm, hs, List.filter_append, List.filter_cons]
    have hP : pre.filter (fun j => decide (j ≠ a)) = pre := by
      rw [List.filter_eq_self]
      intro q hq
      have := hnd'.2.2 q hq a (by simp)
      simpa using this
    have hQ : post.filter (fun j => decide (j ≠ a)) = post := by
      rw [List.filter_eq_self]
      intro q hq
      have h1 := (List.nodup_cons.1 hnd'.2.1).1
      have : q ≠ a := fun h => h1 (h ▸ hq)
      simpa using this
    rw [hP, hQ]; simp
  · have h1 : post.head? ≠ some a := by
      intro hh
      have := List.mem_of_mem_head? hh
      exact (List.nodup_cons.1 hnd'.2.1).1 this
    have h2 : pre.getLast? ≠ some a := by
      intro hh
      have := List.mem_of_getLast? hh
      exact hnd'.2.2 a this a (by simp) rfl
    have := unlink_self hnode h1 h2 hu
    subst hc
    exact this

/-- `++` after the edge under the iterator was erased. -/
theorem At.erase_next {c : C0} (h : c.WF) {x y : Nat} {it : It} {l : List Nat} (hat : c.At x it (y :: l)) :
    it.ptr = some y ∧ ∃ c', c.erase (x, y) = .ok (true, c') ∧ c'.WF ∧
      ∃ it', c'.nbNext it = .ok it' ∧ c'.At x it' l := by
  refine ⟨(hat.next h).1, ?_⟩
  rcases hat with ⟨h1, _⟩ | ⟨pre, a, post, h1, h2, h3, h4⟩
  · cases h1
  · rw [List.map_cons, List.cons.injEq] at h4
    obtain ⟨h4, h5⟩ := h4
    have ha : a ∈ c.slotsOf x := by rw [h1]; simp
    obtain ⟨hal, hax⟩ := mem_slotsOf.1 ha
    have hxy : (x, y) = c.slotEdge a := by rw [h4, ← hax]
    obtain ⟨c', e1, e2, _⟩ := h.erase_ok (c.slotEdge a)
    obtain ⟨k1, k2, k3, k4⟩ := erase_keeps h h1 e1
    rw [k1] at e1
    refine ⟨c', by rw [hxy]; exact e1, e2, ?_⟩
    unfold C0.nbNext
    rw [h2, rd_of k4]
    cases post with
    | nil => exact ⟨_, rfl, Or.inl ⟨by simpa using h5, rfl⟩⟩
    | cons q post =>
      obtain ⟨m1, _⟩ := e2.node k2
      simp only [Res.ok_bind, List.head?_cons]
      rw [rd_of m1]
      refine ⟨_, rfl, Or.inr ⟨_, q, post, k2, rfl, rfl, ?_⟩⟩
      rw [h5]
      apply List.map_congr_left
      intro i _
      rw [k3]

end C0

namespace DK
variable {K : K2Impl}

/-- One round of the loop that deletes the visited edge, while all neighbours of `x` are in the buffer. -/
theorem NbAt.delete (hK : K.Lawful) (S : Sizing) {g : DK K} (hi : g.Inv) {x y : Nat} {it : NbIt}
    {l : List Nat} (hat : NbAt g x it (y :: l)) (hin : it.inC0 = true)
    (ht : treesNeigh K x (g.ks.take (g.maxR + 1)) = []) :
    it.ptr = toInt y ∧ ∃ g' : DK K, g.delEdge S (x, y) = .ok g' ∧ g'.Inv ∧ g'.nv = g.nv ∧
      (∀ e, e ∈ g'.edgesOf ↔ e ∈ g.edgesOf ∧ e ≠ (x, y)) ∧
      treesNeigh K x (g'.ks.take (g'.maxR + 1)) = [] ∧
      ∃ it', g'.nbNext x it = .ok it' ∧ NbAt g' x it' l ∧ (it'.inC0 = true ∨ l = []) := by
  rcases hat with ⟨h1, h2, b, l1, h3, h4, h5⟩ | ⟨h1, _⟩ | ⟨_, h5⟩
  · rw [ht, List.append_nil, List.cons.injEq] at h5
    obtain ⟨rfl, rfl⟩ := h5
    refine ⟨h4, ?_⟩
    obtain ⟨e1, c', e2, e3, c'', e4, e5⟩ := h3.erase_next hi.c0wf
    have hd : g.delEdge S (x, y) = .ok { g with c0 := c', nTotal := decr g.nTotal } := by
      unfold DK.delEdge
      rw [e2]; rfl
    have hm : (x, y) ∈ g.c0.live := by
      obtain ⟨_, q1, _⟩ := hi.c0wf.erase_ok (x, y)
      rw [e2] at q1
      simp only [Res.ok.injEq, Prod.mk.injEq] at q1
      simpa using q1.1.symm
    have hro : InRange g.nv (x, y) := hi.range _ (List.mem_append_left _ hm)
    have hq : g.rebuilds S (x, y) = false := by unfold rebuilds; rw [e2]
    obtain ⟨g1, b0, b1, b2, b3, b4, b5⟩ := hi.delEdge_quiet hK S hro hq
    rw [hd] at b0
    cases b0
    refine ⟨_, hd, b1, rfl, b3, ht, ?_⟩
    have hp : c'.nbPost it.c0it = .ok c'' := by
      unfold C0.nbPost; rw [e1, if_neg (by simp)]; exact e4
    unfold DK.nbNext
    rw [h1]
    simp only [if_true, hp, Res.ok_bind]
    cases l with
    | nil =>
      rw [e5.ptr]
      refine ⟨_, rfl, ?_, Or.inr rfl⟩
      unfold nbNextTree
      simp only [h2]
      have := nbPlace_at { g with c0 := c', nTotal := decr g.nTotal } x c'' 0 [] (by simpa using ht.symm)
      simpa using this
    | cons b' l2 =>
      obtain ⟨e6, _⟩ := e5.next e3
      rw [e6]
      refine ⟨_, rfl, Or.inl ⟨rfl, h2, b', l2, e5, rfl, ?_⟩, Or.inl rfl⟩
      simp only [ht, List.append_nil]
  · rw [h1] at hin; cases hin
  · cases h5

/-- The loop that deletes the visited edges selected by `p`, while all neighbours of `x` are in the buffer. -/
theorem nbLoop_deletes (hK : K.Lawful) (S : Sizing) (x : Nat) (p : Int → Bool) :
    ∀ (l : List Nat) (j f : Nat) {g : DK K} {it : NbIt}, g.Inv → NbAt g x it l →
      (it.inC0 = true ∨ l = []) → treesNeigh K x (g.ks.take (g.maxR + 1)) = [] →
      (∀ y ∈ l, y < 2 ^ 31) → l.length < f →
      ∃ g' : DK K, nbLoop S x (fun _ a => if p a then [Op.del (x, a.toNat)] else []) f j g it =
          .ok (l.map toInt, g') ∧ g'.Inv ∧ g'.nv = g.nv ∧
        ∀ e, e ∈ g'.edgesOf ↔ e ∈ g.edgesOf ∧ ¬ (e.1 = x ∧ e.2 ∈ l ∧ p (e.2 : Int) = true) := by
  intro l
  induction l with
  | nil =>
    intro j f g it hi hat _ _ _ hfu
    obtain ⟨f, rfl⟩ : ∃ f', f = f' + 1 := ⟨f - 1, by omega⟩
    have hp : it.ptr = -1 := by
      rcases hat with ⟨_, _, _, _, _, _, h⟩ | ⟨_, _, _, _, _, _, _, h⟩ | ⟨h, _⟩
      · simp at h
      · simp at h
      · exact h
    refine ⟨g, ?_, hi, rfl, by simp⟩
    unfold nbLoop nbCur
    rw [if_pos hp]; rfl
  | cons y l ih =>
    intro j f g it hi hat hin ht hlt hfu
    obtain ⟨f, rfl⟩ : ∃ f', f = f' + 1 := ⟨f - 1, by omega⟩
    have hin' : it.inC0 = true := hin.resolve_right (by simp)
    have hty : toInt y = (y : Int) := toInt_of_lt (hlt y (by simp))
    have hcur : it.ptr = toInt y → nbCur it = some (y : Int) := by
      intro h; unfold nbCur; rw [h, hty, if_neg (by omega)]
    by_cases hp : p (y : Int) = true
    · obtain ⟨a1, g1, a2, a3, a4, a5, a6, it', a7, a8, a9⟩ := NbAt.delete hK S hi hat hin' ht
      obtain ⟨g2, b1, b2, b3, b4⟩ := ih (j + 1) f a3 a8 a9 a6 (fun z h => hlt z (by simp [h]))
        (by simpa using hfu)
      refine ⟨g2, ?_, b2, by rw [b3, a4], ?_⟩
      · unfold nbLoop
        rw [hcur a1]
        have hs : runFrom S g (if p (y : Int) then [Op.del (x, (y : Int).toNat)] else []) = .ok g1 := by
          rw [if_pos hp]
          show (g.delEdge S (x, y) >>= fun g' => runFrom S g' []) = .ok g1
          rw [a2]; rfl
        simp only [hs, Res.ok_bind, a7, b1, List.map_cons, hty]
      · intro e
        rw [b4, a5]
        constructor
        · rintro ⟨⟨h1, h2⟩, h3⟩
          refine ⟨h1, ?_⟩
          rintro ⟨h4, h5, h6⟩
          rcases List.mem_cons.1 h5 with h7 | h7
          · exact h2 (by rw [← h4, ← h7])
          · exact h3 ⟨h4, h7, h6⟩
        · rintro ⟨h1, h2⟩
          refine ⟨⟨h1, ?_⟩, fun h3 => h2 ⟨h3.1, by simp [h3.2.1], h3.2.2⟩⟩
          rintro rfl
          exact h2 ⟨rfl, by simp, hp⟩
    · obtain ⟨a1, it', a7, a8⟩ := hat.next hi.toWInv
      have a9 : it'.inC0 = true ∨ l = [] := by
        cases l with
        | nil => exact Or.inr rfl
        | cons z l =>
          left
          rcases hat with ⟨h1, h2, b, l1, h3, h4, h5⟩ | ⟨h1, _⟩ | ⟨_, h5⟩
          · rw [ht, List.append_nil, List.cons.injEq] at h5
            obtain ⟨rfl, rfl⟩ := h5
            obtain ⟨e1, c', e2, e3⟩ := h3.next hi.c0wf
            have hpo : g.c0.nbPost it.c0it = .ok c' := by
              unfold C0.nbPost; rw [e1, if_neg (by simp)]; exact e2
            obtain ⟨e4, _⟩ := e3.next hi.c0wf
            unfold DK.nbNext at a7
            rw [h1] at a7
            simp only [if_true, hpo, Res.ok_bind, e4] at a7
            cases a7
            rfl
          · rw [h1] at hin'; cases hin'
          · cases h5
      obtain ⟨g2, b1, b2, b3, b4⟩ := ih (j + 1) f hi a8 a9 ht (fun z h => hlt z (by simp [h]))
        (by simpa using hfu)
      refine ⟨g2, ?_, b2, b3, ?_⟩
      · unfold nbLoop
        rw [hcur a1]
        have hs : runFrom S g (if p (y : Int) then [Op.del (x, (y : Int).toNat)] else []) = .ok g := by
          rw [if_neg hp]; rfl
        simp only [hs, Res.ok_bind, a7, b1, List.map_cons, hty]
      · intro e
        rw [b4]
        constructor
        · rintro ⟨h1, h3⟩
          refine ⟨h1, ?_⟩
          rintro ⟨h4, h5, h6⟩
          rcases List.mem_cons.1 h5 with h7 | h7
          · exact hp (by rw [← h7]; exact h6)
          · exact h3 ⟨h4, h7, h6⟩
        · rintro ⟨h1, h2⟩
          exact ⟨h1, fun h3 => h2 ⟨h3.1, by simp [h3.2.1], h3.2.2⟩⟩

end DK
end DK2
