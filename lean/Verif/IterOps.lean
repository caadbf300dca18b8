import Verif.PropsIter
/-!
# Copying, assigning and postfix-incrementing iterators

The rest of the iterator interface: `operator++(int)`, `operator=` and several iterators of one graph at a time. The
copy constructors of the iterators copy every member (DKtreeNodeIterator.hpp:34-37; implicit for the others), so a copy of
an iterator is the same value.
-/

namespace DK2

/-- The loop `while (it != end) visit(*it++)`. `post` is `operator++(int)`: it returns a reference to the iterator it has
advanced, so that the value visited is the one after the step (`val`, also defined at the end). -/
def driveStar {σ α β : Type} (cur : σ → Option β) (val : σ → α) (post : σ → Res σ) : Nat → σ → Res (List α)
  | 0, _ => .diverge
  | f + 1, s =>
    match cur s with
    | none => .ok []
    | some _ => do
      let s' ← post s
      let r ← driveStar cur val post f s'
      .ok (val s' :: r)

namespace DK
variable {K : K2Impl}

/-- `operator++(int)` of the edge iterator (DKtreeEdgeIterator.hpp:155-159, 190-191). -/
def ePost (it : EIt) : Res EIt := if it.ptr = maxEdge then .ok it else eNext it

/-- `dst = src` for edge iterators (DKtreeEdgeIterator.hpp:175-187): all members but `_i`. -/
def eAssign (dst src : EIt) : EIt := { src with i := dst.i }

/-- `operator++(int)` of the neighbour iterator (DKtreeNeighbourIterator.hpp:60-65). -/
def nbPostfix (g : DK K) (x : Nat) (it : NbIt) : Res NbIt := if it.ptr = -1 then .ok it else g.nbNext x it

/-- `operator++(int)` of the node iterator (DKtreeNodeIterator.hpp:65-68). -/
def nodePost (it : NodeIt) : NodeIt := nodeNext it

/-- `m` increments. -/
def eSteps : Nat → EIt → Res EIt
  | 0, it => .ok it
  | m + 1, it => do
    let it ← eNext it
    eSteps m it

/-- A loop over the edges: what it visits and the iterator it leaves. -/
def eWalk : Nat → EIt → Res (List Edge × EIt)
  | 0, _ => .diverge
  | f + 1, it =>
    match eCur it with
    | none => .ok ([], it)
    | some a => do
      let it' ← eNext it
      let r ← eWalk f it'
      .ok (a :: r.1, r.2)

/-- Two nested loops over the edges by reference, `for (auto &a = g.edge_begin(); a != g.edge_end(); ++a)
for (auto &b = g.edge_begin(); b != g.edge_end(); ++b)`: both names stand for the member `it_edge_begin`
(DKtree.hpp:275-284). For each turn of the outer loop its edge and what the inner loop visits. -/
def eNestRef (g : DK K) (fuel : Nat) : Nat → EIt → Res (List (Edge × List Edge))
  | 0, _ => .diverge
  | f + 1, it =>
    match eCur it with
    | none => .ok []
    | some a => do
      let b ← g.eBegin it.i
      let w ← eWalk fuel b
      let it' ← eNext w.2
      let r ← eNestRef g fuel f it'
      .ok ((a, w.1) :: r)

/-- The nested loops with copies, `for (auto a = g.edge_begin(); …; ++a) for (auto b = g.edge_begin(); …; ++b)`: the
member, whose `_i` is `i0`, is only assigned. -/
def eNestVal (g : DK K) (i0 fuel : Nat) : Nat → EIt → Res (List (Edge × List Edge))
  | 0, _ => .diverge
  | f + 1, it =>
    match eCur it with
    | none => .ok []
    | some a => do
      let b ← g.eBegin i0
      let w ← eWalk fuel b
      let it' ← eNext it
      let r ← eNestVal g i0 fuel f it'
      .ok ((a, w.1) :: r)

/-- Nested loops over the neighbours of `x` and, for each, over its neighbours, by reference: both names stand for
the member `it_neighbour_begin` (DKtree.hpp:302-310); `y` is the vertex of the inner loop. Loops are given `fuel`. -/
def nbWalk (g : DK K) (y : Nat) : Nat → NbIt → Res (List Int × NbIt)
  | 0, _ => .diverge
  | f + 1, it =>
    match nbCur it with
    | none => .ok ([], it)
    | some a => do
      let it' ← g.nbNext y it
      let r ← nbWalk g y f it'
      .ok (a :: r.1, r.2)

/-- As described at `nbWalk`. After the inner loop the member iterates over the neighbours of `y`. -/
def nbNestRef (g : DK K) (fuel : Nat) : Nat → Nat → NbIt → Res (List (Int × List Int))
  | 0, _, _ => .diverge
  | f + 1, _, it =>
    match nbCur it with
    | none => .ok []
    | some a => do
      let y := a.toNat
      let b ← g.nbBegin y
      let w ← g.nbWalk y fuel b
      let it' ← g.nbNext y w.2
      let r ← nbNestRef g fuel f y it'
      .ok ((a, w.1) :: r)

/-! ## Loops in general -/

/-- A loop written with `it++` is the loop written with `++it`. -/
theorem drive_post {σ α : Type} {cur : σ → Option α} {next post : σ → Res σ} (h : ∀ s, cur s ≠ none → post s = next s) :
    ∀ (f : Nat) (s : σ), drive cur post f s = drive cur next f s := by
  intro f
  induction f with
  | zero => intro s; rfl
  | succ f ih =>
    intro s
    unfold drive
    cases hc : cur s with
    | none => rfl
    | some a =>
      have hd : drive cur post f = drive cur next f := funext ih
      simp only [h s (by rw [hc]; simp), hd]

theorem driveStar_eq {σ α β : Type} {cur : σ → Option β} {val : σ → α} {next : σ → Res σ} {fin : α} (R : σ → List α → Prop)
    (h0 : ∀ s, R s [] → cur s = none ∧ val s = fin)
    (h1 : ∀ s a l, R s (a :: l) → cur s ≠ none ∧ val s = a ∧ ∃ s', next s = .ok s' ∧ R s' l) :
    ∀ (l : List α) (f : Nat) (s : σ), R s l → l.length < f →
      driveStar cur val next f s = .ok (if l = [] then [] else l.tail ++ [fin]) := by
  intro l
  induction l with
  | nil =>
    intro f s h hf
    cases f with
    | zero => simp at hf
    | succ f => simp [driveStar, (h0 s h).1]
  | cons a l ih =>
    intro f s h hf
    cases f with
    | zero => simp at hf
    | succ f =>
      obtain ⟨e1, e3, s', e2, h'⟩ := h1 s a l h
      have := ih f s' h' (by simpa using hf)
      unfold driveStar
      cases hc : cur s with
      | none => exact absurd hc e1
      | some b =>
        simp only [e2, Res.ok_bind]
        rw [this]
        simp only [Res.ok_bind]
        cases l with
        | nil => simp [(h0 s' h').2]
        | cons c l => simp [(h1 s' c l h').2.1]

/-! ## Edges -/

/-- The iterator `s` of a loop over the edges of `g` has `m` before it. -/
structure ERel (g : DK K) (s : EIt) (m : List Edge) : Prop where
  c0 : s.c0 = g.c0
  len : s.cur.length = g.ks.length
  no : maxEdge ∉ m
  at' : EAt s m

theorem ERel.nil {g : DK K} {s : EIt} (h : ERel g s []) : s.ptr = maxEdge := by
  rcases h.at' with ⟨_, _, _, _, _, _, _, _, h⟩ | ⟨_, _, _, _, _, _, _, h⟩ | ⟨h, _⟩
  · simp at h
  · simp at h
  · exact h

theorem eNext_len {s s' : EIt} (h : eNext s = .ok s') : s'.cur.length = s.cur.length ∧
    s'.dist = (if s.dist < (s.c0.size : Int) then s.dist + 1 else s.dist) := by
  unfold eNext at h
  split at h
  · rename_i h0
    rw [if_pos h0]
    split at h
    · obtain ⟨o, _, h⟩ := Res.bind_eq_ok.1 h
      obtain ⟨e, _, h⟩ := Res.bind_eq_ok.1 h
      cases h; exact ⟨rfl, rfl⟩
    · split at h
      · obtain ⟨e, _, h⟩ := Res.bind_eq_ok.1 h
        cases h; exact ⟨rfl, rfl⟩
      · cases h; exact ⟨rfl, rfl⟩
  · rename_i h0
    rw [if_neg h0]
    split at h
    · cases h; exact ⟨rfl, rfl⟩
    · split at h
      · cases h
      · split at h
        · obtain ⟨e, _, h⟩ := Res.bind_eq_ok.1 h
          cases h; exact ⟨by simp, rfl⟩
        · cases h; exact ⟨by simp, rfl⟩
      · cases h; exact ⟨by simp, rfl⟩

theorem ERel.next {g : DK K} (w : g.WInv) {s : EIt} {a : Edge} {m : List Edge} (h : ERel g s (a :: m)) :
    s.ptr = a ∧ s.ptr ≠ maxEdge ∧ ∃ s', eNext s = .ok s' ∧ ERel g s' m := by
  obtain ⟨e1, s', e2, e3, e4⟩ := h.at'.next (by rw [h.c0]; exact w.c0wf)
  refine ⟨e1, fun hh => h.no (by simp [← e1, hh]), s', e2, ?_⟩
  exact ⟨by rw [e3, h.c0], by rw [(eNext_len e2).1, h.len], fun hh => h.no (by simp [hh]), e4⟩

theorem ERel.cur_nil {g : DK K} {s : EIt} (h : ERel g s []) : eCur s = none := by
  unfold eCur; rw [if_pos h.nil]

theorem ERel.cur_cons {g : DK K} (w : g.WInv) {s : EIt} {a : Edge} {m : List Edge} (h : ERel g s (a :: m)) :
    eCur s = some a := by
  obtain ⟨e1, e2, _⟩ := h.next w
  unfold eCur; rw [if_neg e2, e1]

/-- The usual loop. -/
theorem ERel.drive {g : DK K} (w : g.WInv) {s : EIt} {m : List Edge} (h : ERel g s m) {f : Nat} (hf : m.length < f) :
    drive eCur eNext f s = .ok m :=
  drive_eq (ERel g) (fun _ h => h.cur_nil) (fun _ _ _ h => ⟨h.cur_cons w, (h.next w).2.2⟩) m f s h hf

theorem ERel.star {g : DK K} (w : g.WInv) {s : EIt} {m : List Edge} (h : ERel g s m) {f : Nat} (hf : m.length < f) :
    driveStar eCur EIt.ptr ePost f s = .ok (if m = [] then [] else m.tail ++ [maxEdge]) := by
  refine driveStar_eq (ERel g) (fun _ h => ⟨h.cur_nil, h.nil⟩) (fun s a m h => ?_) m f s h hf
  obtain ⟨e1, e2, s', e3, e4⟩ := h.next w
  refine ⟨by rw [h.cur_cons w]; simp, e1, s', ?_, e4⟩
  unfold ePost; rw [if_neg e2]; exact e3

theorem ERel.walk {g : DK K} (w : g.WInv) : ∀ {m : List Edge} {s : EIt} {f : Nat}, ERel g s m → m.length < f →
    ∃ s', eWalk f s = .ok (m, s') ∧ eSteps m.length s = .ok s' ∧ ERel g s' [] := by
  intro m
  induction m with
  | nil =>
    intro s f h hf
    cases f with
    | zero => simp at hf
    | succ f => exact ⟨s, by simp [eWalk, h.cur_nil], rfl, h⟩
  | cons a m ih =>
    intro s f h hf
    cases f with
    | zero => simp at hf
    | succ f =>
      obtain ⟨e1, e2, s', e3, e4⟩ := h.next w
      obtain ⟨t, t1, t2, t3⟩ := ih (f := f) e4 (by simpa using hf)
      refine ⟨t, ?_, ?_, t3⟩
      · simp [eWalk, h.cur_cons w, e3, t1]
      · rw [List.length_cons, eSteps, e3]; exact t2

/-- After `k` steps. -/
theorem ERel.steps {g : DK K} (w : g.WInv) : ∀ {k : Nat} {m : List Edge} {s : EIt}, ERel g s m → k ≤ m.length → 0 ≤ s.dist →
    s.dist ≤ g.c0.size → ∃ s', eSteps k s = .ok s' ∧ ERel g s' (m.drop k) ∧ s'.dist = min (s.dist + k) g.c0.size := by
  intro k
  induction k with
  | zero =>
    intro m s h _ _ h1
    exact ⟨s, rfl, by simpa using h, by simp; omega⟩
  | succ k ih =>
    intro m s h hk h0 h1
    cases m with
    | nil => simp at hk
    | cons a m =>
      obtain ⟨e1, e2, s', e3, e4⟩ := h.next w
      have hd := (eNext_len e3).2
      rw [h.c0] at hd
      obtain ⟨t, t1, t2, t3⟩ := ih (m := m) e4 (by simpa using hk) (by rw [hd]; split <;> omega) (by rw [hd]; split <;> omega)
      refine ⟨t, ?_, by simpa using t2, ?_⟩
      · rw [eSteps, e3]; exact t1
      · rw [t3, hd]
        split <;> push_cast <;> omega

/-- The last step of a loop that ends in a tree. -/
theorem ERel.last {g : DK K} {s s' : EIt} {a : Edge} (h : ERel g s [a]) (hd : (g.c0.size : Int) ≤ s.dist)
    (hn : eNext s = .ok s') : s'.i = RS := by
  rcases h.at' with ⟨i, b, l1, h1, h2, _⟩ | ⟨h1, b, l1, j, h2, h3, h4, h5⟩ | ⟨_, h5⟩
  · rw [h.c0] at h2; omega
  · rw [List.cons_append, List.cons.injEq] at h5
    obtain ⟨_, h5⟩ := h5
    have h5 := List.append_eq_nil_iff.1 h5.symm
    unfold eNext at hn
    rw [if_neg (by omega), h2, h5.1] at hn
    simp only at hn
    cases hf : firstFrom s.cur (j + 1) with
    | none => rw [hf] at hn; cases hn; rfl
    | some p =>
      obtain ⟨j', lj⟩ := p
      obtain ⟨g1, g2, g3⟩ := firstFrom_some hf
      rw [h5.2] at g3
      have hl : lj = [] := (List.append_eq_nil_iff.1 g3.symm).1
      rw [hl] at g2
      exact absurd g2 (h4 j' (by omega))
  · simp at h5

theorem firstFrom_beyond {cur : List (Option (List Edge))} {i : Nat} (h : cur.length ≤ i) : firstFrom cur i = none := by
  unfold firstFrom
  rw [List.drop_of_length_le (by simpa using h)]
  rfl

theorem firstFrom_mono {cur : List (Option (List Edge))} {i : Nat} (h : firstFrom cur 0 = none) : firstFrom cur i = none := by
  unfold firstFrom at h ⊢
  rw [List.findSome?_eq_none_iff] at h ⊢
  exact fun x hx => h x (by simpa using List.mem_of_mem_drop hx)

/-- After the last step of a loop a further one changes nothing but `_i`. -/
theorem ERel.done {g : DK K} (w : g.WInv) {s s' : EIt} {a : Edge} (h : ERel g s [a]) (hn : eNext s = .ok s') :
    (g.c0.size : Int) ≤ s'.dist ∧ firstFrom s'.cur s'.i = none := by
  by_cases hd : (g.c0.size : Int) ≤ s.dist
  · have h1 := eNext_len hn
    rw [h.c0, if_neg (by omega)] at h1
    refine ⟨by omega, firstFrom_beyond ?_⟩
    rw [h.last hd hn, h1.1, h.len, w.len]
  · rcases h.at' with ⟨i, b, l1, h1, h2, h3, h4, h6, h5⟩ | ⟨h1, _⟩ | ⟨_, h5⟩
    · rw [List.cons_append, List.cons.injEq] at h5
      obtain ⟨h7, h8⟩ := List.append_eq_nil_iff.1 h5.2.symm
      have hl := congrArg List.length h4
      rw [h7, List.length_drop] at hl
      simp only [slots, List.length_map, List.length_range, List.length_cons, List.length_nil] at hl
      have hc := h.c0
      unfold eNext at hn
      rw [if_pos (by omega), if_neg (by omega)] at hn
      cases hf : firstFrom s.cur 0 with
      | none =>
        rw [hf] at hn
        cases hn
        refine ⟨?_, firstFrom_mono hf⟩
        show (g.c0.size : Int) ≤ s.dist + 1
        rw [← hc]; omega
      | some p =>
        obtain ⟨j, l⟩ := p
        obtain ⟨g1, g2, g3⟩ := firstFrom_some hf
        rw [h8] at g3
        have hl : l = [] := (List.append_eq_nil_iff.1 g3.symm).1
        rw [hl] at g2
        exact absurd rfl (h6 _ (List.mem_of_getElem? g2))
    · rw [h.c0] at h1; omega
    · simp at h5

theorem eSteps_succ : ∀ (k : Nat) (s : EIt), eSteps (k + 1) s = (eSteps k s >>= eNext) := by
  intro k
  induction k with
  | zero =>
    intro s
    simp only [eSteps, Res.ok_bind]
    cases eNext s <;> rfl
  | succ k ih =>
    intro s
    rw [eSteps]
    cases h : eNext s with
    | ok x => simp only [Res.ok_bind]; rw [ih, eSteps, h]; rfl
    | _ => rw [eSteps, h]; rfl

/-- `begin` of a graph without empty trees. -/
theorem begin_rel {g : DK K} (w : g.WInv) (hnv : g.nv ≠ 0) (hne : g.NoEmptyTree) (hs : maxEdge ∉ slots g.c0 ++ flat K g.ks) :
    ∃ s, g.eBegin 0 = .ok s ∧ ERel g s (slots g.c0 ++ flat K g.ks) ∧ s.i = 0 ∧
      (slots g.c0 ++ flat K g.ks ≠ [] → s.dist = 0) := by
  obtain ⟨s, b1, b2, b3, b4⟩ := w.eBegin_at hnv hne
  refine ⟨s, b1, ⟨b2, by rw [b3]; simp, hs, b4⟩, ?_⟩
  unfold eBegin at b1
  simp only at b1
  rw [if_neg hnv] at b1
  split at b1
  · obtain ⟨_, _, b1⟩ := Res.bind_eq_ok.1 b1
    obtain ⟨_, _, b1⟩ := Res.bind_eq_ok.1 b1
    cases b1; exact ⟨rfl, fun _ => rfl⟩
  · rename_i hsz
    split at b1
    · obtain ⟨_, _, b1⟩ := Res.bind_eq_ok.1 b1
      cases b1; exact ⟨rfl, fun _ => rfl⟩
    · rename_i hf
      cases b1
      refine ⟨rfl, fun hh => absurd ?_ hh⟩
      have h1 : slots g.c0 = [] := by
        unfold slots
        have : g.c0.size = 0 := by omega
        rw [this]; rfl
      rw [h1, ← rest_flat, firstFrom_none hf]; rfl

/-! ## Neighbours -/

/-- The neighbour iterator at its end, with nothing left in any tree. -/
structure NbEnd (it : NbIt) : Prop where
  inC0 : it.inC0 = false
  cur : it.cur = some RS
  kit : it.kit = []
  ptr : it.ptr = -1

theorem nbPlace_end {g : DK K} {x : Nat} {c : C0.It} {j : Nat}
    (h : treesNeigh K x ((g.ks.take (g.maxR + 1)).drop j) = []) :
    NbEnd (nbPlace c (seek K x ((g.ks.take (g.maxR + 1)).drop j) j)) := by
  have := seek_spec x ((g.ks.take (g.maxR + 1)).drop j) j
  cases hs : seek K x ((g.ks.take (g.maxR + 1)).drop j) j with
  | none => exact ⟨rfl, rfl, rfl, rfl⟩
  | some p =>
    rw [hs] at this
    obtain ⟨_, h2, h3⟩ := this
    rw [h] at h3
    exact absurd (List.append_eq_nil_iff.1 h3.symm).1 h2

/-- Past the end the iterator stays at the end. -/
theorem NbEnd.next {g : DK K} (w : g.WInv) {x : Nat} {it : NbIt} (h : NbEnd it) : ∃ it', g.nbNext x it = .ok it' ∧ NbEnd it' := by
  unfold nbNext
  rw [h.inC0]
  simp only [Bool.false_eq_true, if_false]
  refine ⟨_, rfl, ?_⟩
  unfold nbNextTree
  rw [h.cur, h.kit]
  refine nbPlace_end ?_
  rw [List.drop_of_length_le (by rw [List.length_take, w.len]; omega)]
  rfl

/-- The iterator `s` has `l` before it, and at the end it is past all trees. -/
structure NbRel (g : DK K) (x : Nat) (s : NbIt) (l : List Nat) : Prop where
  at' : NbAt g x s l
  fin : l = [] → NbEnd s

theorem nbBegin_rel {g : DK K} (h : g.WInv) (x : Nat) :
    ∃ it l, g.nbBegin x = .ok it ∧ g.listNeighbour x = .ok l ∧ NbRel g x it l := by
  obtain ⟨it, l, h1, h2, h3⟩ := nbBegin_at h x
  refine ⟨it, l, h1, h2, h3, fun hl => ?_⟩
  subst hl
  unfold nbBegin at h1
  obtain ⟨c, h4, h5⟩ := Res.bind_eq_ok.1 h1
  have hl : g.listNeighbour x = .ok (((g.c0.live.filter (fun e => decide (e.1 = x))).map (·.2)).reverse
      ++ treesNeigh K x (g.ks.take (g.maxR + 1))) := by
    unfold DK.listNeighbour; rw [h.c0wf.listNeighbours_eq]; rfl
  rw [hl] at h2
  have h2 := List.append_eq_nil_iff.1 (Res.ok.inj h2)
  obtain ⟨c', h6, h7⟩ := h.c0wf.nbBegin x
  rw [h4] at h6; cases h6
  rw [h.c0wf.slotsOf_map, h2.1] at h7
  rw [h7.ptr] at h5
  cases h5
  exact nbPlace_end (j := 0) (by simpa using h2.2)

theorem NbRel.next {g : DK K} (h : g.WInv) {x : Nat} {it : NbIt} {a : Nat} {l : List Nat} (hat : NbRel g x it (a :: l)) :
    it.ptr = toInt a ∧ ∃ it', g.nbNext x it = .ok it' ∧ NbRel g x it' l := by
  obtain ⟨e1, it', e2, e3⟩ := hat.at'.next h
  refine ⟨e1, it', e2, e3, fun hl => ?_⟩
  subst hl
  rcases hat.at' with ⟨h1, h2, b, l1, h3, h4, h5⟩ | ⟨h1, j, b, l1, h2, h3, h4, h5⟩ | ⟨_, h5⟩
  · rw [List.cons_append, List.cons.injEq] at h5
    obtain ⟨rfl, h5⟩ := h5
    obtain ⟨h5, h6⟩ := List.append_eq_nil_iff.1 h5.symm
    subst h5
    obtain ⟨f1, c', f2, f3⟩ := h3.next h.c0wf
    unfold DK.nbNext at e2
    have hp : g.c0.nbPost it.c0it = .ok c' := by
      unfold C0.nbPost; rw [f1, if_neg (by simp)]; exact f2
    rw [h1] at e2
    simp only [if_true, hp, Res.ok_bind, f3.ptr] at e2
    cases e2
    unfold nbNextTree
    simp only [h2]
    exact nbPlace_end (j := 0) (by simpa using h6)
  · rw [List.cons_append, List.cons.injEq] at h5
    obtain ⟨rfl, h5⟩ := h5
    obtain ⟨h5, h6⟩ := List.append_eq_nil_iff.1 h5.symm
    subst h5
    unfold DK.nbNext at e2
    rw [h1] at e2
    simp only [Bool.false_eq_true, if_false] at e2
    cases e2
    unfold nbNextTree
    simp only [h2, h3]
    exact nbPlace_end h6
  · simp at h5

theorem NbRel.cur_nil {g : DK K} {x : Nat} {s : NbIt} (h : NbRel g x s []) : nbCur s = none := by
  unfold nbCur; rw [if_pos (h.fin rfl).ptr]

theorem NbRel.cur_cons {g : DK K} (w : g.WInv) {x : Nat} {s : NbIt} {a : Nat} {l : List Nat} (h : NbRel g x s (a :: l))
    (ha : a < 2 ^ 31) : nbCur s = some (a : Int) ∧ s.ptr ≠ -1 := by
  obtain ⟨e1, _⟩ := h.next w
  rw [toInt_of_lt ha] at e1
  have : s.ptr ≠ -1 := by omega
  refine ⟨?_, this⟩
  unfold nbCur
  rw [if_neg this, e1]

theorem NbRel.walk {g : DK K} (w : g.WInv) {x : Nat} : ∀ {l : List Nat} {s : NbIt} {f : Nat}, NbRel g x s l →
    (∀ y ∈ l, y < 2 ^ 31) → l.length < f →
    ∃ s', g.nbWalk x f s = .ok (l.map (fun y : Nat => (y : Int)), s') ∧ NbEnd s' := by
  intro l
  induction l with
  | nil =>
    intro s f h _ hf
    cases f with
    | zero => simp at hf
    | succ f => exact ⟨s, by simp [nbWalk, h.cur_nil], h.fin rfl⟩
  | cons a l ih =>
    intro s f h hy hf
    cases f with
    | zero => simp at hf
    | succ f =>
      obtain ⟨e1, s', e3, e4⟩ := h.next w
      obtain ⟨t, t1, t2⟩ := ih (f := f) e4 (fun y h => hy y (by simp [h])) (by simpa using hf)
      refine ⟨t, ?_, t2⟩
      simp [nbWalk, (h.cur_cons w (hy a (by simp))).1, e3, t1]

theorem NbRel.star {g : DK K} (w : g.WInv) {x : Nat} {s : NbIt} {l : List Nat} (h : NbRel g x s l)
    (hy : ∀ y ∈ l, y < 2 ^ 31) {f : Nat} (hf : l.length < f) :
    driveStar nbCur NbIt.ptr (g.nbPostfix x) f s =
      .ok (if l = [] then [] else (l.map (fun y : Nat => (y : Int))).tail ++ [-1]) := by
  have := driveStar_eq (cur := nbCur) (val := NbIt.ptr) (next := g.nbPostfix x) (fin := (-1 : Int))
    (fun s (m : List Int) => ∃ l : List Nat, m = l.map (fun y : Nat => (y : Int)) ∧ (∀ y ∈ l, y < 2 ^ 31) ∧ NbRel g x s l)
    (fun s => by
      rintro ⟨l, h1, _, h3⟩
      have h1 : l = [] := by simpa using h1.symm
      subst h1
      exact ⟨h3.cur_nil, (h3.fin rfl).ptr⟩)
    (fun s a m => by
      rintro ⟨l, h1, h2, h3⟩
      cases l with
      | nil => simp at h1
      | cons b l =>
        rw [List.map_cons, List.cons.injEq] at h1
        obtain ⟨e1, s', e3, e4⟩ := h3.next w
        obtain ⟨c1, c2⟩ := h3.cur_cons w (h2 b (by simp))
        refine ⟨by rw [c1]; simp, ?_, s', ?_, l, h1.2, fun y hy => h2 y (by simp [hy]), e4⟩
        · rw [e1, toInt_of_lt (h2 b (by simp)), h1.1]
        · unfold nbPostfix; rw [if_neg c2]; exact e3)
    (l.map (fun y : Nat => (y : Int))) f s ⟨l, rfl, hy, h⟩ (by simpa using hf)
  rw [this]
  cases l <;> simp

/-! ## Vertices -/

theorem nodeStar_eq {g : DK K} (h : g.numberNodes < 2 ^ 31) (f : Nat) (hf : g.numberNodes < f) :
    driveStar nodeCur NodeIt.ptr (fun it => .ok (nodePost it)) f g.nodeBegin =
      .ok (if g.numberNodes = 0 then [] else ((List.range g.numberNodes).map (fun i : Nat => (i : Int))).tail ++ [-1]) := by
  have := driveStar_eq (cur := nodeCur) (val := NodeIt.ptr) (next := fun it => .ok (nodePost it)) (fin := (-1 : Int))
    (fun s m => s.size = (g.numberNodes : Int) ∧ ∃ i : Nat,
      m = ((List.range g.numberNodes).drop i).map (fun i : Nat => (i : Int)) ∧
      ((i < g.numberNodes ∧ s.ptr = (i : Int)) ∨ (g.numberNodes ≤ i ∧ s.ptr = -1)))
    (fun s => by
      rintro ⟨_, i, h1, h2⟩
      rcases h2 with ⟨h2, _⟩ | ⟨_, h2⟩
      · have := congrArg List.length h1
        simp at this; omega
      · refine ⟨?_, h2⟩
        unfold nodeCur; rw [if_pos h2])
    (fun s a m => by
      rintro ⟨hs, i, h1, h2⟩
      rcases h2 with ⟨h2, h3⟩ | ⟨h2, _⟩
      · have hd : (List.range g.numberNodes).drop i = i :: (List.range g.numberNodes).drop (i + 1) := by
          rw [List.drop_eq_getElem_cons (by simpa using h2)]; simp
        rw [hd, List.map_cons, List.cons.injEq] at h1
        refine ⟨?_, by rw [h3, h1.1], _, rfl, ?_, i + 1, h1.2, ?_⟩
        · unfold nodeCur; rw [h3, if_neg (by omega)]; simp
        · unfold nodePost nodeNext; split <;> exact hs
        · unfold nodePost nodeNext
          by_cases hl : i + 1 < g.numberNodes
          · left
            refine ⟨hl, ?_⟩
            rw [if_neg (by rw [h3, hs]; omega)]
            simp [h3]
          · right
            refine ⟨by omega, ?_⟩
            rw [if_pos (by rw [h3, hs]; omega)]
      · rw [List.drop_of_length_le (by simpa using h2)] at h1; cases h1)
    ((List.range g.numberNodes).map (fun i : Nat => (i : Int))) f g.nodeBegin (by
      unfold nodeBegin
      rw [toInt_of_lt h]
      split
      · exact ⟨rfl, 0, by simp, Or.inl ⟨by omega, rfl⟩⟩
      · exact ⟨rfl, 0, by simp, Or.inr ⟨by omega, rfl⟩⟩) (by simpa using hf)
  rw [this]
  congr 1
  by_cases hz : g.numberNodes = 0
  · simp [hz]
  · rw [if_neg hz, if_neg (by simpa using hz)]

end DK
end DK2
