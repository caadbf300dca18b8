import Verif.PropsAlias
import Verif.PropsIter
/-!
# Looping over the edges while the graph grows (C62)

`DKtreeEdgeIterator` copies the buffer and the array of pointers when it is constructed (DKtreeEdgeIterator.hpp:55-56)
and keeps one tree iterator per level.  Here a tree iterator is a position in the sequence of its tree, and the tree is
read from the heap at every step.
-/

namespace DK2
variable {K : K2Impl}

/-- `DKtreeEdgeIterator` (DKtreeEdgeIterator.hpp:216-227): `_c0`, `_kcollection`, the positions of
`_data_k_collection_curr`, `_ptr`, `distance_C0`, `_i`. -/
structure HEIt where
  c0 : C0
  ps : List (Option Nat)
  pos : List Nat
  ptr : Edge
  dist : Int
  i : Nat

namespace HG

/-- First non-null pointer at or after level `i` (DKtreeEdgeIterator.hpp:73-79, 124-131, 137-142). -/
def firstP (ps : List (Option Nat)) (i : Nat) : Option (Nat × Nat) :=
  ((List.range ps.length).drop i).findSome? fun j => (ps[j]?.join).map fun a => (j, a)

/-- What the iterator of level `j` has left: the tree is read now. -/
def rest (K : K2Impl) (h : Heap K) (pos : List Nat) (j a : Nat) : Res (List Edge) := do
  let p ← rd pos j
  let t ← rd h a
  .ok ((K.edges t).drop p)

/-- `edge_begin()` (DKtree.hpp:275-279, DKtreeEdgeIterator.hpp:52-86), as `DK.eBegin`. -/
def eBegin (h : Heap K) (o : HG) (i0 : Nat) : Res HEIt :=
  let pos := o.ps.map (fun _ => 0)
  if o.nv = 0 then .ok ⟨o.c0, o.ps, pos, DK.maxEdge, -1, i0⟩
  else if o.c0.size > 0 then do
    let x ← rd o.c0.elementsNodes 0
    let e ← use x
    .ok ⟨o.c0, o.ps, pos, e, 0, i0⟩
  else
    match firstP o.ps 0 with
    | some (j, a) => do
      let l ← rest K h pos j a
      let e ← DK.deref l
      .ok ⟨o.c0, o.ps, pos, e, 0, i0⟩
    | none => .ok ⟨o.c0, o.ps, pos, DK.maxEdge, -1, i0⟩

/-- `operator++()` (DKtreeEdgeIterator.hpp:116-153), as `DK.eNext`. -/
def eNext (h : Heap K) (it : HEIt) : Res HEIt :=
  if it.dist < (it.c0.size : Int) then
    if it.dist + 1 < (it.c0.size : Int) then do
      let x ← rd it.c0.elementsNodes (it.dist + 1).toNat
      let e ← use x
      .ok { it with dist := it.dist + 1, ptr := e }
    else
      match firstP it.ps 0 with
      | some (j, a) => do
        let l ← rest K h it.pos j a
        let e ← DK.deref l
        .ok { it with dist := it.dist + 1, ptr := e, i := j }
      | none => .ok { it with dist := it.dist + 1, ptr := DK.maxEdge }
  else
    match firstP it.ps it.i with
    | none => .ok { it with ptr := DK.maxEdge, i := RS }
    | some (j, a) => do
      let l ← rest K h it.pos j a
      let p ← rd it.pos j
      match l with
      | [] => .ub
      | _ :: [] =>
        (match firstP it.ps (j + 1) with
        | some (j', a') => do
          let l' ← rest K h it.pos j' a'
          let e ← DK.deref l'
          .ok { it with pos := it.pos.set j (p + 1), ptr := e, i := j' }
        | none => .ok { it with pos := it.pos.set j (p + 1), ptr := DK.maxEdge, i := RS })
      | _ :: e :: _ => .ok { it with pos := it.pos.set j (p + 1), ptr := e, i := j }

/-- `*it`, or `none` when `it == edge_end()` (DKtreeEdgeIterator.hpp:88-90, 161-169). -/
def eCur (it : HEIt) : Option Edge := if it.ptr = DK.maxEdge then none else some it.ptr

/-- `add_edge` on every edge of a list. -/
def addAll (S : Sizing) : Heap K × HG → List Edge → Res (Heap K × HG)
  | r, [] => .ok r
  | r, e :: es => do
    let r' ← addEdge S r.1 r.2 e
    addAll S r' es

/-- The user's loop `for (it = begin; it != end; ++it) { visit(*it); … }` whose body, the `k`-th time, inserts the edges
`mods k`. -/
def loop (S : Sizing) (mods : Nat → List Edge) : Nat → Nat → Heap K × HG → HEIt → Res (List Edge × (Heap K × HG))
  | 0, _, _, _ => .diverge
  | f + 1, k, r, it =>
    match eCur it with
    | none => .ok ([], r)
    | some e => do
      let r' ← addAll S r (mods k)
      let it' ← eNext r'.1 it
      let l ← loop S mods f (k + 1) r' it'
      .ok (e :: l.1, l.2)

/-- The loop from `edge_begin()` to `edge_end()` with insertions; the final graph is also returned. -/
def edgeLoop (S : Sizing) (mods : Nat → List Edge) (fuel : Nat) (r : Heap K × HG) : Res (List Edge × (Heap K × HG)) := do
  let it ← eBegin r.1 r.2 0
  loop S mods fuel 0 r it

/-! ## Relation with the value-level iterator -/

/-- What the tree iterators have left, as values. -/
def curOf (h : Heap K) (ps : List (Option Nat)) (pos : List Nat) : List (Option (List Edge)) :=
  List.zipWith (fun p q => p.bind fun a => (h[a]?).map fun t => (K.edges t).drop q) ps pos

/-- The iterator as a value. -/
def toVal (h : Heap K) (it : HEIt) : DK.EIt := ⟨it.c0, curOf h it.ps it.pos, it.ptr, it.dist, it.i⟩

/-- The iterator's pointers are valid. -/
structure ItOk (h : Heap K) (it : HEIt) : Prop where
  lt : ∀ a, some a ∈ it.ps → a < h.length
  len : it.pos.length = it.ps.length

theorem ItOk.keep {h h' : Heap K} {it : HEIt} (hi : ItOk h it) (hk : Keep h h') (hl : h.length ≤ h'.length) :
    ItOk h' it ∧ toVal h' it = toVal h it := by
  refine ⟨⟨fun a ha => lt_of_lt_of_le (hi.lt a ha) hl, hi.len⟩, ?_⟩
  unfold toVal curOf
  congr 1
  refine List.ext_getElem? fun j => ?_
  rw [List.getElem?_zipWith, List.getElem?_zipWith]
  cases hp : it.ps[j]? with
  | none => rfl
  | some p =>
    cases hq : it.pos[j]? with
    | none => rfl
    | some q =>
      cases p with
      | none => rfl
      | some a =>
        have := hk a (hi.lt a (List.mem_of_getElem? hp))
        simp [this]

theorem curOf_length {h : Heap K} {ps : List (Option Nat)} {pos : List Nat} (hl : pos.length = ps.length) :
    (curOf h ps pos).length = ps.length := by simp [curOf, hl]

theorem curOf_get {h : Heap K} {ps : List (Option Nat)} {pos : List Nat} (hl : pos.length = ps.length) (j : Nat) :
    (curOf h ps pos)[j]?.join = (ps[j]?.join).bind fun a => (h[a]?).map fun t => (K.edges t).drop ((pos[j]?).getD 0) := by
  unfold curOf
  rw [List.getElem?_zipWith]
  cases hp : ps[j]? with
  | none => rfl
  | some p =>
    have hj : j < pos.length := by rw [hl]; exact (List.getElem?_eq_some_iff.1 hp).1
    rw [List.getElem?_eq_getElem hj]
    cases p <;> simp

theorem findSome?_map_congr {α β γ : Type} {f : α → Option β} {g : α → Option γ} {φ : γ → β} {l : List α}
    (h : ∀ a ∈ l, f a = (g a).map φ) : l.findSome? f = (l.findSome? g).map φ := by
  induction l with
  | nil => rfl
  | cons a l ih =>
    rw [List.findSome?_cons, List.findSome?_cons, h a (by simp)]
    cases hg : g a with
    | none => simpa using ih (fun b hb => h b (List.mem_cons_of_mem _ hb))
    | some c => simp

theorem firstP_mem {ps : List (Option Nat)} {i j a : Nat} (h : firstP ps i = some (j, a)) : ps[j]? = some (some a) := by
  unfold firstP at h
  obtain ⟨l1, x, l2, _, h2, _⟩ := List.findSome?_eq_some_iff.1 h
  cases hp : ps[x]?.join with
  | none => rw [hp] at h2; cases h2
  | some b =>
    rw [hp] at h2
    cases h2
    cases hq : ps[j]? with
    | none => rw [hq] at hp; cases hp
    | some q => rw [hq] at hp; simp at hp; rw [hp]

theorem ItOk.first {h : Heap K} {ps : List (Option Nat)} {pos : List Nat} (hlt : ∀ a, some a ∈ ps → a < h.length)
    (hl : pos.length = ps.length) (i : Nat) :
    (firstP ps i = none ∧ DK.firstFrom (curOf h ps pos) i = none) ∨
    ∃ j a l p, firstP ps i = some (j, a) ∧ DK.firstFrom (curOf h ps pos) i = some (j, l) ∧ rest K h pos j a = .ok l ∧
      pos[j]? = some p ∧ ∃ t, h[a]? = some t ∧ l = (K.edges t).drop p ∧ ps[j]? = some (some a) := by
  have hmap : DK.firstFrom (curOf h ps pos) i = (firstP ps i).map (fun q : Nat × Nat =>
      (q.1, (((h[q.2]?).map fun t => (K.edges t).drop ((pos[q.1]?).getD 0)).getD []))) := by
    unfold DK.firstFrom firstP
    rw [curOf_length hl]
    refine findSome?_map_congr fun j _ => ?_
    rw [curOf_get hl]
    cases hp : ps[j]?.join with
    | none => rfl
    | some a =>
      have hm : some a ∈ ps := by
        cases hq : ps[j]? with
        | none => rw [hq] at hp; cases hp
        | some q => rw [hq] at hp; simp at hp; rw [← hp]; exact List.mem_of_getElem? hq
      simp [List.getElem?_eq_getElem (hlt a hm)]
  cases hf : firstP ps i with
  | none => left; exact ⟨rfl, by rw [hmap, hf]; rfl⟩
  | some q =>
    right
    obtain ⟨j, a⟩ := q
    have hg := firstP_mem hf
    have hj : j < pos.length := by rw [hl]; exact (List.getElem?_eq_some_iff.1 hg).1
    have ha := hlt a (List.mem_of_getElem? hg)
    refine ⟨j, a, (K.edges h[a]).drop pos[j], pos[j], rfl, ?_, ?_, List.getElem?_eq_getElem hj, h[a],
      List.getElem?_eq_getElem ha, rfl, hg⟩
    · rw [hmap, hf]; simp [List.getElem?_eq_getElem ha, List.getElem?_eq_getElem hj]
    · simp only [rest, rd_of (List.getElem?_eq_getElem hj), rd_of (List.getElem?_eq_getElem ha), Res.ok_bind]

theorem curOf_set {h : Heap K} {ps : List (Option Nat)} {pos : List Nat} {j a p : Nat} {t : K.T}
    (hp : ps[j]? = some (some a)) (hq : pos[j]? = some p) (ht : h[a]? = some t) :
    curOf h ps (pos.set j (p + 1)) = (curOf h ps pos).set j (some ((K.edges t).drop (p + 1))) := by
  unfold curOf
  refine List.ext_getElem? fun i => ?_
  rw [List.getElem?_zipWith, List.getElem?_set, List.getElem?_set, List.getElem?_zipWith]
  have hj : j < pos.length := (List.getElem?_eq_some_iff.1 hq).1
  have hj' : j < (List.zipWith (fun (p : Option Nat) q => p.bind fun a => (h[a]?).map fun t => (K.edges t).drop q) ps pos).length := by
    have := (List.getElem?_eq_some_iff.1 hp).1
    rw [List.length_zipWith]; omega
  by_cases hij : j = i
  · subst hij
    rw [if_pos rfl, if_pos hj, if_pos rfl, if_pos hj', hp]
    simp [ht]
  · simp [hij]

theorem eNext_rel {h : Heap K} {it : HEIt} (hi : ItOk h it) :
    Res.Rel (fun it' v => v = toVal h it' ∧ ItOk h it') (eNext h it) (DK.eNext (toVal h it)) := by
  unfold eNext DK.eNext
  by_cases h1 : it.dist < (it.c0.size : Int)
  · rw [if_pos h1, if_pos (show (toVal h it).dist < ((toVal h it).c0.size : Int) from h1)]
    by_cases h2 : it.dist + 1 < (it.c0.size : Int)
    · rw [if_pos h2, if_pos (show (toVal h it).dist + 1 < ((toVal h it).c0.size : Int) from h2)]
      refine Res.Rel.bind (R := fun a b => a = b) (Res.Rel.refl (fun _ => rfl) _) ?_
      rintro x _ rfl
      refine Res.Rel.bind (R := fun a b => a = b) (Res.Rel.refl (fun _ => rfl) _) ?_
      rintro e _ rfl
      exact .ok ⟨rfl, hi.lt, hi.len⟩
    · rw [if_neg h2, if_neg (show ¬ (toVal h it).dist + 1 < ((toVal h it).c0.size : Int) from h2)]
      simp only [toVal]
      rcases ItOk.first hi.lt hi.len 0 with ⟨f1, f2⟩ | ⟨j, a, l, p, f1, f2, f3, _⟩
      · rw [f1, f2]; exact .ok ⟨rfl, hi.lt, hi.len⟩
      · simp only [f1, f2, f3, Res.ok_bind]
        refine Res.Rel.bind (R := fun a b => a = b) (Res.Rel.refl (fun _ => rfl) _) ?_
        rintro e _ rfl
        exact .ok ⟨rfl, hi.lt, hi.len⟩
  · rw [if_neg h1, if_neg (show ¬ (toVal h it).dist < ((toVal h it).c0.size : Int) from h1)]
    simp only [toVal]
    rcases ItOk.first hi.lt hi.len it.i with ⟨f1, f2⟩ | ⟨j, a, l, p, f1, f2, f3, f4, t, f5, f6, f7⟩
    · rw [f1, f2]; exact .ok ⟨rfl, hi.lt, hi.len⟩
    · have hset : ∀ l0 e0, l = e0 :: l0 → curOf h it.ps (it.pos.set j (p + 1)) =
          (curOf h it.ps it.pos).set j (some l0) := by
        intro l0 e0 hl
        rw [curOf_set f7 f4 f5]
        have : (K.edges t).drop (p + 1) = l0 := by
          rw [← List.tail_drop, ← f6, hl]; rfl
        rw [this]
      simp only [f1, f2, f3, rd_of f4, Res.ok_bind]
      cases l with
      | nil => exact .ub
      | cons e0 l0 =>
        cases l0 with
        | nil =>
          simp only
          rcases ItOk.first hi.lt hi.len (j + 1) with ⟨g1, g2⟩ | ⟨j', a', l', p', g1, g2, g3, _⟩
          · simp only [g1, g2]
            refine .ok ⟨?_, hi.lt, by simpa using hi.len⟩
            rw [hset _ _ rfl]
          · simp only [g1, g2, g3, Res.ok_bind]
            refine Res.Rel.bind (R := fun a b => a = b) (Res.Rel.refl (fun _ => rfl) _) ?_
            rintro e _ rfl
            refine .ok ⟨?_, hi.lt, by simpa using hi.len⟩
            rw [hset _ _ rfl]
        | cons e l2 =>
          refine .ok ⟨?_, hi.lt, by simpa using hi.len⟩
          rw [hset _ _ rfl]

theorem curOf_begin (h : Heap K) (ps : List (Option Nat)) :
    curOf h ps (ps.map (fun _ => 0)) = (vw h ps).map (Option.map K.edges) := by
  unfold curOf vw
  refine List.ext_getElem? fun j => ?_
  rw [List.getElem?_zipWith]
  simp only [List.getElem?_map]
  cases ps[j]? with
  | none => rfl
  | some p => cases p <;> simp

theorem eBegin_rel {h : Heap K} {o : HG} (ho : Own h o.ps) (i0 : Nat) :
    Res.Rel (fun it v => v = toVal h it ∧ ItOk h it) (eBegin h o i0) ((view h o).eBegin i0) := by
  have hv : ∀ e d, (⟨o.c0, (vw h o.ps).map (Option.map K.edges), e, d, i0⟩ : DK.EIt) =
      toVal h ⟨o.c0, o.ps, o.ps.map (fun _ => 0), e, d, i0⟩ := by
    intro e d; unfold toVal; rw [curOf_begin]
  have hok : ∀ e d, ItOk h ⟨o.c0, o.ps, o.ps.map (fun _ => 0), e, d, i0⟩ := fun e d => ⟨ho.lt, by simp⟩
  unfold eBegin DK.eBegin
  by_cases h0 : o.nv = 0
  · rw [if_pos h0, if_pos (show (view h o).nv = 0 from h0)]; exact .ok ⟨hv _ _, hok _ _⟩
  · rw [if_neg h0, if_neg (show ¬ (view h o).nv = 0 from h0)]
    by_cases h1 : o.c0.size > 0
    · rw [if_pos h1, if_pos (show (view h o).c0.size > 0 from h1)]
      refine Res.Rel.bind (R := fun a b => a = b) (Res.Rel.refl (fun _ => rfl) _) ?_
      rintro x _ rfl
      refine Res.Rel.bind (R := fun a b => a = b) (Res.Rel.refl (fun _ => rfl) _) ?_
      rintro e _ rfl
      exact .ok ⟨hv _ _, hok _ _⟩
    · rw [if_neg h1, if_neg (show ¬ (view h o).c0.size > 0 from h1)]
      simp only [view]
      have hf := ItOk.first (pos := o.ps.map (fun _ => 0)) ho.lt (by simp) 0
      rw [curOf_begin] at hf
      rcases hf with ⟨f1, f2⟩ | ⟨j, a, l, p, f1, f2, f3, _⟩
      · rw [f1, f2]; exact .ok ⟨hv _ _, hok _ _⟩
      · simp only [f1, f2, f3, Res.ok_bind]
        refine Res.Rel.bind (R := fun a b => a = b) (Res.Rel.refl (fun _ => rfl) _) ?_
        rintro e _ rfl
        exact .ok ⟨hv _ _, hok _ _⟩

theorem addAll_rel (S : Sizing) : ∀ (es : List Edge) {r : Heap K × HG}, Own r.1 r.2.ps →
    Res.Rel (fun _ _ => True) (addAll S r es) (DK.runFrom S (view r.1 r.2) (DK.inserts es)) := by
  intro es
  induction es with
  | nil => intro r _; exact .ok trivial
  | cons e es ih =>
    intro r ho
    refine Res.Rel.bind (addEdge_rel S ho e) ?_
    rintro r' g ⟨b1, b2, _⟩
    rw [b1]
    exact ih b2

theorem addAll_keep (hF : K.ForcedPure) {S : Sizing} : ∀ (es : List Edge) {r r' : Heap K × HG}, Own r.1 r.2.ps →
    addAll S r es = .ok r' → Own r'.1 r'.2.ps ∧ Keep r.1 r'.1 ∧ r.1.length ≤ r'.1.length ∧
      DK.runFrom S (view r.1 r.2) (DK.inserts es) = .ok (view r'.1 r'.2) := by
  intro es
  induction es with
  | nil => intro r r' ho h; cases h; exact ⟨ho, fun _ _ => rfl, le_rfl, rfl⟩
  | cons e es ih =>
    intro r r' ho h
    simp only [addAll] at h
    rw [Res.bind_eq_ok] at h
    obtain ⟨r1, h1, h2⟩ := h
    have hs := addEdge_rel S ho e
    rw [h1] at hs
    obtain ⟨g, hg, b1, b2, b3, _⟩ := hs.ok_left
    obtain ⟨c1, c2, c3, c4⟩ := ih b2 h2
    refine ⟨c1, (addEdge_keep hF ho h1).trans c2 b3.len, b3.len.trans c3, ?_⟩
    show (do let g ← (view r.1 r.2).addEdge S e; DK.runFrom S g (DK.inserts es)) = _
    rw [hg, Res.ok_bind, b1]
    exact c4

theorem loop_val (hF : K.ForcedPure) (S : Sizing) (mods : Nat → List Edge) : ∀ (f k : Nat) {r : Heap K × HG} {it : HEIt}
    {l : List Edge × (Heap K × HG)}, Own r.1 r.2.ps → ItOk r.1 it → loop S mods f k r it = .ok l →
    drive DK.eCur DK.eNext f (toVal r.1 it) = .ok l.1 := by
  intro f
  induction f with
  | zero => intro k r it l _ _ h; cases h
  | succ f ih =>
    intro k r it l ho hi h
    simp only [loop] at h
    simp only [drive]
    rw [show DK.eCur (toVal r.1 it) = eCur it from rfl]
    cases hp : eCur it with
    | none => rw [hp] at h; cases h; rfl
    | some e =>
      rw [hp] at h
      simp only at h ⊢
      rw [Res.bind_eq_ok] at h
      obtain ⟨r1, h1, h⟩ := h
      rw [Res.bind_eq_ok] at h
      obtain ⟨it1, h2, h⟩ := h
      rw [Res.bind_eq_ok] at h
      obtain ⟨l1, h3, h⟩ := h
      cases h
      obtain ⟨o1, k1, k2, _⟩ := addAll_keep hF _ ho h1
      obtain ⟨i1, i2⟩ := hi.keep k1 k2
      have hn := eNext_rel i1
      rw [h2, i2] at hn
      obtain ⟨v, hv, v1, v2⟩ := hn.ok_left
      have := ih (k + 1) o1 v2 h3
      rw [← v1] at this
      rw [hv, Res.ok_bind, this, Res.ok_bind]

theorem loop_total (hK : K.Lawful) (hF : K.ForcedPure) {S : Sizing} (hT : S.Top) {n : Nat} (h2 : 2 ≤ n)
    {mods : Nat → List Edge} (hm : ∀ k, ∀ e ∈ mods k, InRange n e) : ∀ (l : List Edge) (k : Nat) {r : Heap K × HG}
    {it : HEIt} {es : List Edge}, (∀ e ∈ es, InRange n e) → Own r.1 r.2.ps →
    DK.run K S n (DK.inserts es) = .ok (view r.1 r.2) → ItOk r.1 it →
    (∀ f, l.length < f → drive DK.eCur DK.eNext f (toVal r.1 it) = .ok l) →
    ∃ r' : Heap K × HG, (∀ f, l.length < f → loop S mods f k r it = .ok (l, r')) ∧ Own r'.1 r'.2.ps ∧
      DK.run K S n (DK.inserts (es ++ (List.range l.length).flatMap fun i => mods (k + i))) = .ok (view r'.1 r'.2) := by
  intro l
  induction l with
  | nil =>
    intro k r it es hes ho hr hi hd
    have h1 := hd 1 (by simp)
    simp only [drive] at h1
    rw [show DK.eCur (toVal r.1 it) = eCur it from rfl] at h1
    cases hp : eCur it with
    | some e =>
      rw [hp] at h1
      simp only [Res.bind_eq_ok] at h1
      obtain ⟨_, _, _, h4, _⟩ := h1
      cases h4
    | none =>
      refine ⟨r, fun f hf => ?_, ho, by simpa using hr⟩
      cases f with
      | zero => simp at hf
      | succ f => simp [loop, hp]
  | cons e l ih =>
    intro k r it es hes ho hr hi hd
    have hcur : eCur it = some e := by
      have h1 := hd (l.length + 2) (by simp)
      simp only [drive] at h1
      rw [show DK.eCur (toVal r.1 it) = eCur it from rfl] at h1
      cases hp : eCur it with
      | none => rw [hp] at h1; cases h1
      | some e' =>
        rw [hp] at h1
        simp only [Res.bind_eq_ok] at h1
        obtain ⟨_, _, _, _, h4⟩ := h1
        cases h4; rfl
    have hes' : ∀ e ∈ es ++ mods k, InRange n e := by
      intro x hx
      rcases List.mem_append.1 hx with hx | hx
      · exact hes x hx
      · exact hm k x hx
    obtain ⟨g1, hg1, _⟩ := DK.run_inserts hK hF hT h2 hes'
    have hsplit : DK.run K S n (DK.inserts (es ++ mods k)) = DK.runFrom S (view r.1 r.2) (DK.inserts (mods k)) := by
      rw [show DK.inserts (es ++ mods k) = DK.inserts es ++ DK.inserts (mods k) by simp [DK.inserts], DK.run_append, hr,
        Res.ok_bind]
    have hrel := addAll_rel S (mods k) ho
    rw [← hsplit, hg1] at hrel
    obtain ⟨r1, hr1, _⟩ := hrel.ok_right
    obtain ⟨o1, k1, k2, k3⟩ := addAll_keep hF _ ho hr1
    obtain ⟨i1, i2⟩ := hi.keep k1 k2
    have hn := eNext_rel i1
    have hnx : ∃ v, DK.eNext (toVal r.1 it) = .ok v ∧ ∀ f, l.length < f → drive DK.eCur DK.eNext f v = .ok l := by
      have hstep : ∀ f, l.length < f → ∃ v, DK.eNext (toVal r.1 it) = .ok v ∧ drive DK.eCur DK.eNext f v = .ok l := by
        intro f hf
        have h1 := hd (f + 1) (by simpa using hf)
        simp only [drive] at h1
        rw [show DK.eCur (toVal r.1 it) = eCur it from rfl, hcur] at h1
        simp only [Res.bind_eq_ok] at h1
        obtain ⟨v, hv, l', h4, h5⟩ := h1
        cases h5
        exact ⟨v, hv, h4⟩
      obtain ⟨v, hv, _⟩ := hstep (l.length + 1) (by omega)
      refine ⟨v, hv, fun f hf => ?_⟩
      obtain ⟨v', hv', h⟩ := hstep f hf
      rw [hv] at hv'; cases hv'; exact h
    obtain ⟨v, hv, hvd⟩ := hnx
    rw [i2, hv] at hn
    obtain ⟨it1, hit1, v1, v2⟩ := hn.ok_right
    obtain ⟨r', a1, a2, a3⟩ := ih (k + 1) hes' o1 (by rw [hsplit]; exact k3) v2 (by rw [← v1]; exact hvd)
    refine ⟨r', fun f hf => ?_, a2, ?_⟩
    · cases f with
      | zero => simp at hf
      | succ f =>
        simp only [loop, hcur]
        rw [hr1, Res.ok_bind, hit1, Res.ok_bind, a1 f (by simpa using hf), Res.ok_bind]
    · rw [← a3, List.length_cons, List.range_succ_eq_map, List.flatMap_cons, List.append_assoc]
      simp only [Nat.add_zero, List.flatMap_map]
      congr 4
      refine List.flatMap_congr fun i _ => ?_
      rw [Nat.add_succ, Nat.succ_add]

end HG

open HG

/-! ## C62 -/

/-- C62, on every history: inserting edges during a loop over the edges does not change what the loop visits; a
loop that ends has visited what it would have visited without the insertions. -/
theorem C62_snapshot (hF : K.ForcedPure) (S : Sizing) {n : Nat} {ops : List Op} {r : Heap K × HG}
    (hr : HG.run K S n ops = .ok r) {mods : Nat → List Edge} {fuel : Nat} {l : List Edge × (Heap K × HG)}
    (hl : edgeLoop S mods fuel r = .ok l) :
    ∃ g, DK.run K S n ops = .ok g ∧ g.eAll 0 fuel = .ok l.1 := by
  have h0 := HG.run_rel (K := K) S n ops
  rw [hr] at h0
  obtain ⟨g, hg, e0, ho⟩ := h0.ok_left
  refine ⟨g, hg, ?_⟩
  unfold edgeLoop at hl
  rw [Res.bind_eq_ok] at hl
  obtain ⟨it, h1, h2⟩ := hl
  have hb := eBegin_rel ho 0
  rw [h1] at hb
  obtain ⟨v, hv, v1, v2⟩ := hb.ok_left
  unfold DK.eAll
  rw [e0, hv, Res.ok_bind, v1]
  exact loop_val hF S mods fuel 0 ho v2 h2

/-- C62, in graphs built by insertions: a loop over the edges whose body inserts any edges always ends, visits every edge
that was there when it began exactly once and no other, and leaves a graph with all the edges inserted. -/
theorem C62_total (hK : K.Lawful) (hF : K.ForcedPure) {n : Nat} (h2 : 2 ≤ n) (hn : n ≤ 9999999) {es : List Edge}
    (hes : ∀ e ∈ es, InRange n e) {mods : Nat → List Edge} (hm : ∀ k, ∀ e ∈ mods k, InRange n e) :
    ∃ r, HG.run K realSizing n (es.map Op.add) = .ok r ∧ ∃ l : List Edge, l.Nodup ∧ (∀ e, e ∈ l ↔ e ∈ es) ∧
      ∃ r' : Heap K × HG, (∀ fuel, l.length < fuel → edgeLoop realSizing mods fuel r = .ok (l, r')) ∧
        ∀ e, InRange n e → (HG.contains r'.1 r'.2 e = .ok (decide (e ∈ es ∨ ∃ k, k < l.length ∧ e ∈ mods k))) := by
  obtain ⟨g, hg, l, hl, hnd, hmem⟩ := DK2.C10_insert_only_partial hK hF h2 hn hes
  have h0 := HG.run_rel (K := K) realSizing n (es.map Op.add)
  rw [hg] at h0
  obtain ⟨r, hr, e0, ho⟩ := h0.ok_right
  refine ⟨r, hr, l, hnd, hmem, ?_⟩
  have hb := eBegin_rel ho 0
  rw [e0] at hg hl
  have hbeg : ∃ v, (view r.1 r.2).eBegin 0 = .ok v ∧ ∀ f, l.length < f → drive DK.eCur DK.eNext f v = .ok l := by
    have hstep : ∀ f, l.length < f → ∃ v, (view r.1 r.2).eBegin 0 = .ok v ∧ drive DK.eCur DK.eNext f v = .ok l := by
      intro f hf
      have := hl f hf
      unfold DK.eAll at this
      rw [Res.bind_eq_ok] at this
      exact this
    obtain ⟨v, hv, _⟩ := hstep (l.length + 1) (by omega)
    refine ⟨v, hv, fun f hf => ?_⟩
    obtain ⟨v', hv', h⟩ := hstep f hf
    rw [hv] at hv'; cases hv'; exact h
  obtain ⟨v, hv, hvd⟩ := hbeg
  rw [hv] at hb
  obtain ⟨it, hit, v1, v2⟩ := hb.ok_right
  obtain ⟨r', a1, a2, a3⟩ := loop_total hK hF realSizing_top h2 hm l 0 hes ho hg v2 (by rw [← v1]; exact hvd)
  refine ⟨r', fun f hf => ?_, fun e he => ?_⟩
  · unfold edgeLoop
    rw [hit, Res.ok_bind, a1 f hf]
  · have hall : ∀ e ∈ es ++ (List.range l.length).flatMap (fun i => mods (0 + i)), InRange n e := by
      intro x hx
      rcases List.mem_append.1 hx with hx | hx
      · exact hes x hx
      · obtain ⟨i, _, hi⟩ := List.mem_flatMap.1 hx
        exact hm _ x hi
    obtain ⟨g', hg', _, c3, c4⟩ := DK.run_inserts hK hF realSizing_top h2 hall
    rw [a3] at hg'; cases hg'
    rw [contains_eq a2, c4.inv.contains_eq hK (by rw [c3]; exact he)]
    congr 1
    rw [decide_eq_decide, c4.mem]
    simp

/-- The hypotheses of `C62_snapshot` are met after a deletion: three edges in a tree, one deleted, and a loop that inserts
an edge each time, one of which moves the buffer into a tree. -/
example : ∃ r, HG.run refK2 realSizing 3 [.add (0, 0), .add (2, 0), .add (2, 1), .del (2, 0), .add (1, 1)] = .ok r ∧
    ∃ r', edgeLoop realSizing (fun k => [(1, 2), (k, 0), (2, 2)]) 9 r = .ok ([(1, 1), (0, 0), (2, 1)], r') ∧
      HG.contains r'.1 r'.2 (1, 2) = .ok true := by
  have hx : DK.check (HG.run refK2 hybSizing 3 [.add (0, 0), .add (2, 0), .add (2, 1), .del (2, 0), .add (1, 1)]) (fun r =>
      DK.check (edgeLoop hybSizing (fun k => [(1, 2), (k, 0), (2, 2)]) 9 r) (fun l =>
        decide (l.1 = [(1, 1), (0, 0), (2, 1)]) && decide (HG.contains l.2.1 l.2.2 (1, 2) = .ok true))) = true := by
    decide +kernel
  obtain ⟨r, h1, h2⟩ := DK.check_iff.1 hx
  obtain ⟨l, h3, h4⟩ := DK.check_iff.1 h2
  rw [← realSizing_eq_hyb] at h1 h3
  simp only [Bool.and_eq_true, decide_eq_true_eq] at h4
  refine ⟨r, h1, l.2, ?_, h4.2⟩
  rw [h3, ← h4.1]

end DK2
