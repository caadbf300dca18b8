import Verif.IterOps
import Verif.PropsRank
/-!
# C99: the iterators as forward iterators

The iterator classes declare `forward_iterator_tag`: `*it++` is the element before the step, an assigned iterator goes on as
the other one does, and several iterators of one graph can be used at a time.
-/

namespace DK2
open DK
variable {K : K2Impl}

/-- An insertion-only graph and what a loop over its edges visits. -/
theorem loop_built (hK : K.Lawful) (hF : K.ForcedPure) {n : Nat} (h2 : 2 ≤ n) (hn : n ≤ 9999999) {es : List Edge}
    (hes : ∀ e ∈ es, InRange n e) {g : DK K} (hr : run K realSizing n (es.map Op.add) = .ok g) :
    ∃ s l, g.WInv ∧ g.eBegin 0 = .ok s ∧ ERel g s l ∧ s.i = 0 ∧ (l ≠ [] → s.dist = 0) ∧ l.Nodup ∧ (∀ e, e ∈ l ↔ e ∈ es) ∧
      g.c0.size ≤ l.length ∧ ∀ fuel, l.length < fuel → g.eAll 0 fuel = .ok l := by
  obtain ⟨g', h1, hf, h3, h4⟩ := run_inserts hK hF realSizing_top h2 hes
  have h1 : run K realSizing n (es.map Op.add) = .ok g' := h1
  rw [hr] at h1; cases h1
  have ho : OpsInRange n (inserts es) := by
    intro o hoo
    obtain ⟨e, he, rfl⟩ := List.mem_map.1 hoo
    exact hes e he
  have hne := run_noEmpty hK hF realSizing ho (inserts_quiet _ _ _) hr
  have hE : slots g.c0 ++ flat K g.ks = g.edgesOf := by rw [slots_eq_live h4.inv.c0wf hf.c0m]; rfl
  have hs : maxEdge ∉ slots g.c0 ++ flat K g.ks := by
    rw [hE]
    intro hc
    have := (h4.inv.range _ hc).1
    rw [h3] at this
    have h' : maxEdge.1 = 9999999 := rfl
    omega
  obtain ⟨s, b1, b2, b3, b4⟩ := begin_rel h4.inv.toWInv (by omega) hne hs
  rw [hE] at b2 b4
  refine ⟨s, g.edgesOf, h4.inv.toWInv, b1, b2, b3, b4, h4.inv.nodup, h4.mem, ?_, fun f hf => ?_⟩
  · rw [← hE]; simp [slots]
  unfold eAll
  rw [b1]
  exact b2.drive h4.inv.toWInv hf

/-- What a loop over the edges of `g` visits. -/
def Visits (g : DK K) (l : List Edge) : Prop := ∀ fuel, l.length < fuel → g.eAll 0 fuel = .ok l

theorem Visits.unique {g : DK K} {l l' : List Edge} (h : Visits g l) (h' : Visits g l') : l = l' := by
  have h1 := h (l.length + l'.length + 1) (by omega)
  rw [h' _ (by omega)] at h1
  exact (Res.ok.inj h1).symm

/-- C99, the full statement for the edges of insertion-only graphs, where a loop over the edges visits `l`:
the loop `while (it != end) visit(*it++)` visits `l`; an iterator that has finished a loop and is assigned one that has
made `m` steps visits what is left of `l`; nested loops over the edges visit all pairs of edges. -/
def C99_Full (K : K2Impl) : Prop :=
  ∀ (n : Nat) (es : List Edge) (g : DK K) (l : List Edge), 2 ≤ n → n ≤ 9999999 → (∀ e ∈ es, InRange n e) →
    run K realSizing n (es.map Op.add) = .ok g → Visits g l →
    ∃ s, g.eBegin 0 = .ok s ∧ ∀ fuel, l.length < fuel →
      driveStar eCur EIt.ptr ePost fuel s = .ok l ∧
      (∀ m d b, m ≤ l.length → eSteps l.length s = .ok d → eSteps m s = .ok b →
        drive eCur eNext fuel (eAssign d b) = .ok (l.drop m)) ∧
      g.eNestRef fuel fuel s = .ok (l.map fun a => (a, l))

/-- C99 for loops written with `it++`: the same as with `++it`, from any iterator. -/
theorem C99_postfix_partial (fuel : Nat) (s : EIt) : drive eCur ePost fuel s = drive eCur eNext fuel s := by
  refine drive_post (fun s h => ?_) fuel s
  unfold ePost
  unfold eCur at h
  split at h
  · exact absurd rfl h
  · rename_i h0; rw [if_neg h0]

section
variable (hK : K.Lawful) (hF : K.ForcedPure) {n : Nat} (h2 : 2 ≤ n) (hn : n ≤ 9999999) {es : List Edge}
  (hes : ∀ e ∈ es, InRange n e) {g : DK K} (hr : run K realSizing n (es.map Op.add) = .ok g)
include hK hF h2 hn hes hr

/-- Which iterator `edge_begin()` gives, and that it visits the inserted edges, each once. -/
theorem C99_loop_partial : ∃ s l, g.eBegin 0 = .ok s ∧ Visits g l ∧ l.Nodup ∧ ∀ e, e ∈ l ↔ e ∈ es := by
  obtain ⟨s, l, _, b1, _, _, _, h3, h4, _, h5⟩ := loop_built hK hF h2 hn hes hr
  exact ⟨s, l, b1, h5, h3, h4⟩

/-- C99, the first failure: `while (it != end) visit(*it++)` never shows the first edge, and shows the end mark
`(9999999,9999999)` as if it were the last. -/
theorem C99_star {s : EIt} {l : List Edge} (hs : g.eBegin 0 = .ok s) (hl : Visits g l) (hne : l ≠ []) {fuel : Nat}
    (hf : l.length < fuel) : driveStar eCur EIt.ptr ePost fuel s = .ok (l.tail ++ [(9999999, 9999999)]) := by
  obtain ⟨s', l', w, b1, b2, b3, b4, _, _, hsz, b5⟩ := loop_built hK hF h2 hn hes hr
  rw [hs] at b1; cases b1
  rw [hl.unique b5] at hne hf ⊢
  rw [b2.star w hf, if_neg hne]
  rfl

/-- C99 for assignment while the assigned iterator is in the buffer: whatever iterator it is assigned to goes on exactly as
it does. -/
theorem C99_assign_partial {s : EIt} {l : List Edge} (hs : g.eBegin 0 = .ok s) (hl : Visits g l) {m : Nat}
    (hm : m < g.c0.size) {b : EIt} (hb : eSteps m s = .ok b) (d : EIt) {fuel : Nat} (hf : l.length < fuel) :
    drive eCur eNext fuel (eAssign d b) = .ok (l.drop m) := by
  obtain ⟨s', l', w, b1, b2, b3, b4, _, _, hsz, b5⟩ := loop_built hK hF h2 hn hes hr
  rw [hs] at b1; cases b1
  rw [hl.unique b5] at hf ⊢
  have hne : l' ≠ [] := fun h => by rw [h] at hsz; simp at hsz; omega
  have hd := b4 hne
  obtain ⟨t, t1, t2, t3⟩ := b2.steps w (k := m) (by omega) (by omega) (by omega)
  rw [hb] at t1; cases t1
  rw [hd] at t3
  have hlt : (l'.drop m).length < fuel := by rw [List.length_drop]; omega
  refine ERel.drive (g := g) w (s := eAssign d b) (m := l'.drop m) ⟨t2.c0, t2.len, t2.no, ?_⟩ hlt
  rcases t2.at' with h | ⟨h, _⟩ | h
  · exact Or.inl h
  · rw [t2.c0, t3] at h; omega
  · exact Or.inr (Or.inr h)

/-- C99, the second failure: an iterator that has finished a loop (in a tree), assigned one that has left the buffer, visits
the current edge and no other. -/
theorem C99_assign_finished {s : EIt} {l : List Edge} (hs : g.eBegin 0 = .ok s) (hl : Visits g l) {m : Nat}
    (hm : g.c0.size ≤ m) (hml : m < l.length) {b d : EIt} (hb : eSteps m s = .ok b) (hd : eSteps l.length s = .ok d)
    {fuel : Nat} (hf : 1 < fuel) : drive eCur eNext fuel (eAssign d b) = .ok [l[m]] := by
  obtain ⟨s', l', w, b1, b2, b3, b4, _, _, hsz, b5⟩ := loop_built hK hF h2 hn hes hr
  rw [hs] at b1; cases b1
  have hll := hl.unique b5
  subst hll
  have hne : l ≠ [] := fun h => by rw [h] at hml; simp at hml
  have hd0 := b4 hne
  obtain ⟨t, t1, t2, t3⟩ := b2.steps w (k := m) hml.le (by omega) (by omega)
  rw [hb] at t1; cases t1
  -- the finished iterator
  obtain ⟨k, hk⟩ : ∃ k, l.length = k + 1 := ⟨l.length - 1, by omega⟩
  obtain ⟨u, u1, u2, u3⟩ := b2.steps w (k := k) (by omega) (by omega) (by omega)
  have hlast : l.drop k = [l[k]] := by
    rw [List.drop_eq_getElem_cons (by omega), List.drop_of_length_le (by omega)]
  rw [hlast] at u2
  rw [hk, eSteps_succ, u1] at hd
  have hdi : d.i = RS := u2.last (by rw [u3, hd0]; omega) hd
  -- the assigned iterator
  rw [List.drop_eq_getElem_cons hml] at t2
  obtain ⟨e1, e2, _⟩ := t2.next w
  obtain ⟨f, rfl⟩ : ∃ f, fuel = f + 2 := ⟨fuel - 2, by omega⟩
  have hc : eCur (eAssign d b) = some l[m] := by
    show (if b.ptr = maxEdge then none else some b.ptr) = _
    rw [if_neg e2, e1]
  have hnx : eNext (eAssign d b) = .ok { eAssign d b with ptr := maxEdge, i := RS } := by
    unfold eNext
    rw [if_neg (by
      show ¬ b.dist < (b.c0.size : Int)
      rw [t3, t2.c0, hd0]; omega)]
    have : firstFrom (eAssign d b).cur (eAssign d b).i = none := by
      refine firstFrom_beyond ?_
      show b.cur.length ≤ d.i
      rw [hdi, t2.len, w.len]
    rw [this]
  unfold drive
  rw [hc]
  simp only [hnx, Res.ok_bind]
  unfold drive
  rfl

/-- C99, the third failure: of two nested loops by reference over the edges the outer one makes a single turn. -/
theorem C99_nest_ref {s : EIt} {l : List Edge} (hs : g.eBegin 0 = .ok s) (hl : Visits g l) (hne : l ≠ []) {fuel f : Nat}
    (hf : l.length < fuel) (hf2 : 1 < f) : g.eNestRef fuel f s = .ok [(l.head hne, l)] := by
  obtain ⟨s', l', w, b1, b2, b3, b4, _, _, hsz, b5⟩ := loop_built hK hF h2 hn hes hr
  rw [hs] at b1; cases b1
  have hll := hl.unique b5
  subst hll
  obtain ⟨a, m, rfl⟩ := List.exists_cons_of_ne_nil hne
  obtain ⟨f, rfl⟩ : ∃ k, f = k + 2 := ⟨f - 2, by omega⟩
  obtain ⟨t, t1, t2, t3⟩ := b2.walk w hf
  have hd := b4 hne
  obtain ⟨u, u1, u2, u3⟩ := b2.steps w (k := m.length) (by simp) (by omega) (by omega)
  -- one more step leaves the iterator at the end
  have hend : ∃ t', eNext t = .ok t' ∧ t'.ptr = maxEdge := by
    rw [List.length_cons, eSteps_succ, u1] at t2
    have hlast : (a :: m).drop m.length = [(a :: m)[m.length]] := by
      rw [List.drop_eq_getElem_cons (by simp), List.drop_of_length_le (by simp)]
    rw [hlast] at u2
    obtain ⟨d1, d2⟩ := u2.done w t2
    unfold eNext
    rw [if_neg (by rw [t3.c0]; omega), d2]
    exact ⟨_, rfl, rfl⟩
  obtain ⟨t', e1, e2⟩ := hend
  unfold eNestRef
  rw [b2.cur_cons w, b3]
  simp only [hs, t1, Res.ok_bind, e1]
  unfold eNestRef
  have : eCur t' = none := by unfold eCur; rw [if_pos e2]
  rw [this]
  rfl

/-- C99 for nested loops over the edges with copies of the iterators: all pairs of edges. -/
theorem C99_nest_value_partial {s : EIt} {l : List Edge} (hs : g.eBegin 0 = .ok s) (hl : Visits g l) {fuel f : Nat}
    (hf : l.length < fuel) (hf2 : l.length < f) : g.eNestVal 0 fuel f s = .ok (l.map fun a => (a, l)) := by
  obtain ⟨s', l', w, b1, b2, b3, b4, _, _, hsz, b5⟩ := loop_built hK hF h2 hn hes hr
  rw [hs] at b1; cases b1
  have hll := hl.unique b5
  subst hll
  obtain ⟨t, t1, _, _⟩ := b2.walk w hf
  have key : ∀ (m : List Edge) (f : Nat) (u : EIt), ERel g u m → m.length < f →
      g.eNestVal 0 fuel f u = .ok (m.map fun a => (a, l)) := by
    intro m
    induction m with
    | nil =>
      intro f u hu hf
      cases f with
      | zero => simp at hf
      | succ f => simp [eNestVal, hu.cur_nil]
    | cons a m ih =>
      intro f u hu hf
      cases f with
      | zero => simp at hf
      | succ f =>
        obtain ⟨_, _, u', u1, u2⟩ := hu.next w
        unfold eNestVal
        rw [hu.cur_cons w]
        simp only [hs, t1, Res.ok_bind, u1]
        rw [ih f u' u2 (by simpa using hf)]
        rfl
  exact key l f s b2 hf2

end

/-- C99 is false: a graph with one edge. -/
theorem C99_refuted (hK : K.Lawful) (hF : K.ForcedPure) : ¬ C99_Full K := by
  intro h
  have hes : ∀ e ∈ [((0, 1) : Edge)], InRange 2 e := by simp [InRange]
  obtain ⟨g, h1, _⟩ := built hK hF (n := 2) (by omega) (by omega) hes
  obtain ⟨s, l, a1, a2, a3, a4⟩ := C99_loop_partial hK hF (by omega) (by omega) hes h1
  have hl : l ≠ [] := fun hh => by
    have := (a4 (0, 1)).2 (by simp)
    rw [hh] at this; simp at this
  obtain ⟨s', b1, b2⟩ := h 2 _ g l (by omega) (by omega) hes h1 a2
  rw [a1] at b1; cases b1
  have b3 := (b2 (l.length + 1) (by omega)).1
  rw [C99_star hK hF (by omega) (by omega) hes h1 a1 a2 hl (by omega)] at b3
  have hm : ((9999999, 9999999) : Edge) ∈ l := by
    rw [← Res.ok.inj b3]; simp
  have := (a4 _).1 hm
  simp at this

/-! ## Neighbours and vertices -/

/-- C99 for loops over the neighbours written with `it++`: the same as with `++it`. -/
theorem C99_neighbours_postfix_partial (g : DK K) (x fuel : Nat) (s : NbIt) :
    drive nbCur (g.nbPostfix x) fuel s = drive nbCur (g.nbNext x) fuel s := by
  refine drive_post (fun s h => ?_) fuel s
  unfold nbPostfix
  unfold nbCur at h
  split at h
  · exact absurd rfl h
  · rename_i h0; rw [if_neg h0]

/-- C99, the first failure for neighbours, after any history: `visit(*it++)` never shows the first neighbour and ends with `-1`. -/
theorem C99_neighbours_star (hK : K.Lawful) (S : Sizing) {n : Nat} (hn : n ≤ 2 ^ 31) {ops : List Op} {g : DK K}
    (ho : OpsInRange n ops) (hr : run K S n ops = .ok g) {x : Nat} (hx : x < n) :
    ∃ it l, g.nbBegin x = .ok it ∧ g.listNeighbour x = .ok l ∧ ∀ fuel, l.length < fuel →
      driveStar nbCur NbIt.ptr (g.nbPostfix x) fuel it =
        .ok (if l = [] then [] else (l.map (fun y : Nat => (y : Int))).tail ++ [-1]) := by
  obtain ⟨w, hnv, _⟩ := run_weak hK S ho hr
  obtain ⟨it, l, h1, h2, h3⟩ := nbBegin_rel w x
  have hlt := listNeighbour_lt hK S ho hr hx h2
  exact ⟨it, l, h1, h2, fun f hf => h3.star w (fun y hy => by have := hlt y hy; omega) hf⟩

/-- C99, the third failure for neighbours, after any history: of a loop by reference over the neighbours of `x` and one in
its body over the neighbours of each of them, the outer makes a single turn. -/
theorem C99_neighbours_nest (hK : K.Lawful) (S : Sizing) {n : Nat} (hn : n ≤ 2 ^ 31) {ops : List Op} {g : DK K}
    (ho : OpsInRange n ops) (hr : run K S n ops = .ok g) {x y : Nat} (hx : x < n) {l : List Nat}
    (hl : g.listNeighbour x = .ok (y :: l)) :
    ∃ it m, g.nbBegin x = .ok it ∧ g.listNeighbour y = .ok m ∧ ∀ fuel f, m.length < fuel → 1 < f →
      g.nbNestRef fuel f x it = .ok [((y : Int), m.map (fun z : Nat => (z : Int)))] := by
  obtain ⟨w, hnv, _⟩ := run_weak hK S ho hr
  obtain ⟨it, l', h1, h2, h3⟩ := nbBegin_rel w x
  rw [hl] at h2; cases h2
  have hlt := listNeighbour_lt hK S ho hr hx hl
  have hy : y < n := hlt y (by simp)
  obtain ⟨b, m, b1, b2, b3⟩ := nbBegin_rel w y
  have hlt2 := listNeighbour_lt hK S ho hr hy b2
  refine ⟨it, m, h1, b2, fun fuel f hf hf2 => ?_⟩
  obtain ⟨f, rfl⟩ : ∃ k, f = k + 2 := ⟨f - 2, by omega⟩
  obtain ⟨t, t1, t2⟩ := b3.walk w (fun z hz => by have := hlt2 z hz; omega) hf
  obtain ⟨t', t3, t4⟩ := t2.next w (x := y)
  unfold nbNestRef
  rw [(h3.cur_cons w (by omega)).1]
  simp only [Int.toNat_natCast, b1, t1, Res.ok_bind, t3]
  unfold nbNestRef
  have : nbCur t' = none := by unfold nbCur; rw [if_pos t4.ptr]
  rw [this]
  rfl

/-- C99 for the vertices, whose `it++` is `++it` (the iterator itself), after any history. -/
theorem C99_nodes_star (hK : K.Lawful) (S : Sizing) {n : Nat} (hn : n < 2 ^ 31) {ops : List Op} {g : DK K}
    (ho : OpsInRange n ops) (hr : run K S n ops = .ok g) {fuel : Nat} (hf : n < fuel) :
    driveStar nodeCur NodeIt.ptr (fun it => .ok (nodePost it)) fuel g.nodeBegin =
      .ok (if n = 0 then [] else ((List.range n).map (fun i : Nat => (i : Int))).tail ++ [-1]) := by
  obtain ⟨_, hnv, _⟩ := run_weak hK S ho hr
  have := nodeStar_eq (g := g) (by show g.nv < _; omega) fuel (by show g.nv < _; omega)
  rw [this]
  show Res.ok (if g.nv = 0 then [] else _) = _
  rw [show g.numberNodes = n from hnv, hnv]

/-! ## Instances -/

/-- Four edges, three of them in a tree: the loop, the loop with `*it++`, nested loops by reference and by value. -/
example : ∃ g : DK refK2, run refK2 realSizing 4 ([(0, 0), (0, 1), (0, 2), (3, 3)].map Op.add) = .ok g ∧
    decide (g.c0.size = 1 ∧ g.eAll 0 9 = .ok [(3, 3), (0, 0), (0, 1), (0, 2)] ∧
      (g.eBegin 0 >>= driveStar eCur EIt.ptr ePost 9) = .ok [(0, 0), (0, 1), (0, 2), (9999999, 9999999)] ∧
      (g.eBegin 0 >>= g.eNestRef 9 9) = .ok [((3, 3), [(3, 3), (0, 0), (0, 1), (0, 2)])] ∧
      (g.eBegin 0 >>= g.eNestVal 0 9 9 >>= fun r => .ok (r.map (·.2.length))) = .ok [4, 4, 4, 4]) = true :=
  real_check (by decide) (by decide +kernel)

/-- The same graph: an iterator that has finished the loop is assigned one that has made two steps. -/
example : ∃ g : DK refK2, run refK2 realSizing 4 ([(0, 0), (0, 1), (0, 2), (3, 3)].map Op.add) = .ok g ∧
    decide ((g.eBegin 0 >>= fun s => eSteps 2 s >>= fun b => eSteps 4 s >>= fun d =>
        drive eCur eNext 9 (eAssign d b)) = .ok [(0, 1)]) = true :=
  real_check (by decide) (by decide +kernel)

/-- Neighbours of 0, one in the buffer and three in a tree. -/
example : ∃ g : DK refK2, run refK2 realSizing 4 ([(0, 0), (0, 1), (0, 2), (0, 3), (3, 3)].map Op.add) = .ok g ∧
    decide (g.listNeighbour 0 = .ok [3, 0, 1, 2] ∧
      (g.nbBegin 0 >>= driveStar nbCur NbIt.ptr (g.nbPostfix 0) 9) = .ok [0, 1, 2, -1] ∧
      (g.nbBegin 0 >>= g.nbNestRef 9 9 0) = .ok [(3, [3])]) = true :=
  real_check (by decide) (by decide +kernel)

end DK2
