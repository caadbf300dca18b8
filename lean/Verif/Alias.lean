import Verif.Hist
/-!
# `DKtree` with its pointers (`include/dktree/DKtree.hpp`)

In `DK.lean` the level array holds trees; in the code it holds `shared_ptr<k_tree>` (DKtree.hpp:61).  Here the
trees live in a heap and the level array holds addresses, so that two graphs may share trees: the implicit copy
constructor and copy assignment of `DKtree` copy the pointers (used by `Algorithm(Graph &g): g(g)`,
Algorithm.hpp:21, 23-25).  A tree is freed only when no pointer to it is left, so freeing is not observable and
the heap only grows.
-/

namespace DK2

/-- The heap: address `a` is the `a`-th allocated tree. -/
abbrev Heap (K : K2Impl) := List K.T

/-- `DKtree` (DKtree.hpp:50-61) as `DK`, with `k_collection` an array of pointers (`none` is `nullptr`). -/
structure HG where
  maxR : Nat
  nv : Nat
  nTotal : Nat
  c0 : C0
  ps : List (Option Nat)

namespace HG
variable {K : K2Impl}

/-- `DKtree(n_vertices)` (DKtree.hpp:70-79). -/
def create (S : Sizing) (n : Nat) : Res HG :=
  if n = 1 then .ub else .ok ⟨0, n, 0, C0.new S n, List.replicate RS none⟩

/-- The loop of `contains` (DKtree.hpp:156-159). -/
def treesContain (K : K2Impl) (e : Edge) (h : Heap K) : List (Option Nat) → Res Bool
  | [] => .ok false
  | none :: ps => treesContain K e h ps
  | some p :: ps => do
    let t ← rd h p
    if K.adj t e then .ok true else treesContain K e h ps

/-- `contains(x,y)` (DKtree.hpp:151-160). -/
def contains (h : Heap K) (o : HG) (e : Edge) : Res Bool := do
  let b ← o.c0.contains e
  if b then .ok true else treesContain K e h o.ps

/-- The loop of `contains_forced` (DKtree.hpp:172-175); `adj_forced` works in place. -/
def forcedScan (K : K2Impl) (e : Edge) : Heap K → List (Option Nat) → Res (Bool × Heap K)
  | h, [] => .ok (false, h)
  | h, none :: ps => forcedScan K e h ps
  | h, some p :: ps => do
    let t ← rd h p
    let h ← wr h p (K.adjForced t e).2
    if (K.adjForced t e).1 then .ok (true, h) else forcedScan K e h ps

/-- `contains_forced(x,y)` (DKtree.hpp:167-176). -/
def containsForced (h : Heap K) (o : HG) (e : Edge) : Res (Bool × Heap K) := do
  let b ← o.c0.contains e
  if b then .ok (true, h) else forcedScan K e h o.ps

/-- The level-selection loop (DKtree.hpp:111-117). -/
def selectLevel (K : K2Impl) (S : Sizing) (m : Nat) (h : Heap K) : List (Option Nat) → Nat → Nat → Res (Option Nat)
  | [], _, _ => .ok none
  | none :: ps, i, acc =>
    if S.maxsz m (i + 1) > acc + 1 then .ok (some i) else selectLevel K S m h ps (i + 1) acc
  | some p :: ps, i, acc => do
    let t ← rd h p
    if S.maxsz m (i + 1) > acc + K.total t + 1 then .ok (some i)
    else selectLevel K S m h ps (i + 1) (acc + K.total t)

/-- The merge loop (DKtree.hpp:135-140): `tmp->unionOp(k_collection[j])` works in place on `*tmp`. -/
def mergeUpTo (K : K2Impl) (tmp : Nat) : Nat → Heap K → List (Option Nat) → Res (Heap K × List (Option Nat))
  | 0, h, ps => .ok (h, ps)
  | _ + 1, h, [] => .ok (h, [])
  | n + 1, h, none :: ps => do
    let r ← mergeUpTo K tmp n h ps
    .ok (r.1, none :: r.2)
  | n + 1, h, some q :: ps => do
    let t ← rd h tmp
    let u ← rd h q
    let h ← wr h tmp (K.union t u)
    let r ← mergeUpTo K tmp n h ps
    .ok (r.1, none :: r.2)

/-- The flush branch of `add_edge` (DKtree.hpp:122-143): `make_shared` allocates. -/
def flush (h : Heap K) (o : HG) (e : Edge) (i : Nat) : Res (Heap K × HG) := do
  let conv ← o.c0.converted
  let c ← o.c0.clean
  let m ← mergeUpTo K h.length (i + 1) (h ++ [K.build (conv ++ [e]) o.nv]) o.ps
  .ok (m.1, { o with maxR := max i o.maxR, c0 := c, ps := m.2.set i (some h.length), nTotal := o.nTotal + 1 })

/-- `add_edge(x,y)` (DKtree.hpp:101-144). -/
def addEdge (S : Sizing) (h : Heap K) (o : HG) (e : Edge) : Res (Heap K × HG) := do
  let r ← containsForced h o e
  if r.1 then .ok (r.2, o)
  else if o.c0.size < S.maxsz (max o.nv o.nTotal) 0 then do
    let c ← o.c0.insert S e o.nTotal
    .ok (r.2, { o with c0 := c, nTotal := o.nTotal + 1 })
  else do
    let l ← selectLevel K S (max o.nv o.nTotal) r.2 o.ps 0 (S.maxsz (max o.nv o.nTotal) 0)
    match l with
    | none => .throws
    | some i => flush r.2 o e i

/-- The loop of `del_edge` that erases (DKtree.hpp:188-192), in place. -/
def eraseScan (K : K2Impl) (e : Edge) : Heap K → List (Option Nat) → Res (Bool × Heap K)
  | h, [] => .ok (false, h)
  | h, none :: ps => eraseScan K e h ps
  | h, some p :: ps => do
    let t ← rd h p
    let h ← wr h p (K.erase t e).2
    if (K.erase t e).1 then .ok (true, h) else eraseScan K e h ps

/-- The loop that drops trees whose edges are all marked (DKtree.hpp:194-204). -/
def sweep (K : K2Impl) (h : Heap K) : List (Option Nat) → Res (Nat × List (Option Nat))
  | [] => .ok (0, [])
  | none :: ps => do
    let r ← sweep K h ps
    .ok (r.1, none :: r.2)
  | some p :: ps => do
    let t ← rd h p
    let r ← sweep K h ps
    if K.marked t = K.total t then .ok (r.1, none :: r.2) else .ok (K.marked t + r.1, some p :: r.2)

/-- The rebuild's merge loop (DKtree.hpp:236-241); `tmp` may be null. -/
def mergeAll (K : K2Impl) (tmp : Option Nat) : Heap K → List (Option Nat) → Res (Heap K)
  | h, [] => .ok h
  | h, none :: ps => mergeAll K tmp h ps
  | h, some q :: ps => do
    let p ← use tmp
    let t ← rd h p
    let u ← rd h q
    let h ← wr h p (K.union t u)
    mergeAll K tmp h ps

/-- First part of the rebuild (DKtree.hpp:217-223). -/
def rebuildPrep (S : Sizing) (h : Heap K) (o : HG) : Res (Bool × Heap K × HG) :=
  if o.c0.size = 0 then do
    let oo ← contains h o (1, 1)
    let r ← addEdge S h o (1, 1)
    .ok (oo, r)
  else .ok (false, h, o)

/-- Draining the buffer into `tmp` (DKtree.hpp:224-235). -/
def rebuildDrain (h : Heap K) (o : HG) : Res (Option Nat × Heap K × C0) :=
  if o.c0.size > 0 then do
    let conv ← o.c0.converted
    let c ← o.c0.clean
    .ok (some h.length, h ++ [K.build conv o.nv], c)
  else .ok (none, h, o.c0)

/-- The rebuild branch of `del_edge` (DKtree.hpp:208-244). -/
def rebuild (S : Sizing) (h : Heap K) (o : HG) : Res (Heap K × HG) := do
  let i := DK.rebuildLevel S (max o.nv o.nTotal) o.nTotal
  let p ← rebuildPrep S h o
  let d ← rebuildDrain p.2.1 p.2.2
  let h ← mergeAll K d.1 d.2.1 p.2.2.ps
  let ps ← wr (List.replicate RS (none : Option Nat)) i d.1
  if p.1 then .ok (h, { p.2.2 with c0 := d.2.2, ps := ps })
  else do
    let a ← use d.1
    let t ← rd h a
    let h ← wr h a (K.erase t (1, 1)).2
    .ok (h, { p.2.2 with c0 := d.2.2, ps := ps })

/-- `del_edge(x,y)` (DKtree.hpp:183-246). -/
def delEdge (S : Sizing) (h : Heap K) (o : HG) (e : Edge) : Res (Heap K × HG) := do
  let r ← o.c0.erase e
  if r.1 then .ok (h, { o with c0 := r.2, nTotal := decr o.nTotal })
  else do
    let a ← eraseScan K e h o.ps
    let s ← sweep K a.2 o.ps
    let o' := { o with c0 := r.2, ps := s.2, nTotal := if a.1 then decr o.nTotal else o.nTotal }
    if S.rebuild s.1 o'.nTotal then rebuild S a.2 o' else .ok (a.2, o')

/-- The part of `list_neighbour` over the trees (DKtree.hpp:256-260). -/
def treesNeigh (K : K2Impl) (x : Nat) (h : Heap K) : List (Option Nat) → Res (List Nat)
  | [] => .ok []
  | none :: ps => treesNeigh K x h ps
  | some p :: ps => do
    let t ← rd h p
    let r ← treesNeigh K x h ps
    .ok (K.neigh t x ++ r)

/-- `list_neighbour(x)` (DKtree.hpp:252-262). -/
def listNeighbour (h : Heap K) (o : HG) (x : Nat) : Res (List Nat) := do
  let l ← o.c0.listNeighbours x
  let r ← treesNeigh K x h (o.ps.take (o.maxR + 1))
  .ok (l ++ r)

/-- One user call. -/
def step (S : Sizing) (h : Heap K) (o : HG) : Op → Res (Heap K × HG)
  | .add e => addEdge S h o e
  | .del e => delEdge S h o e

/-! ## Relation with the values of `DK` -/

/-- The trees the pointers stand for. -/
def vw (h : Heap K) (ps : List (Option Nat)) : List (Option K.T) := ps.map (fun p => p.bind (fun a => h[a]?))

/-- The graph as a value. -/
def view (h : Heap K) (o : HG) : DK K := ⟨o.maxR, o.nv, o.nTotal, o.c0, vw h o.ps⟩

/-- No dangling pointer, and no two levels point to the same tree. -/
structure Own (h : Heap K) (ps : List (Option Nat)) : Prop where
  lt : ∀ a, some a ∈ ps → a < h.length
  nodup : (ps.filterMap id).Nodup

/-- Only the trees of `ps` may have changed, and new ones may have been allocated. -/
structure Frame (ps : List (Option Nat)) (h h' : Heap K) : Prop where
  len : h.length ≤ h'.length
  same : ∀ a, a < h.length → some a ∉ ps → h'[a]? = h[a]?

end HG

/-- Two outcomes of the same kind, with related values. -/
inductive Res.Rel {α β : Type} (R : α → β → Prop) : Res α → Res β → Prop where
  | ok {a : α} {b : β} : R a b → Rel R (.ok a) (.ok b)
  | throws : Rel R .throws .throws
  | ub : Rel R .ub .ub
  | abort : Rel R .abort .abort
  | diverge : Rel R .diverge .diverge

theorem Res.Rel.bind {α β γ δ : Type} {R : α → β → Prop} {R' : γ → δ → Prop} {a : Res α} {b : Res β}
    {f : α → Res γ} {g : β → Res δ} (h : Res.Rel R a b) (hf : ∀ x y, R x y → Res.Rel R' (f x) (g y)) :
    Res.Rel R' (a >>= f) (b >>= g) := by
  cases h with
  | ok h => exact hf _ _ h
  | throws => exact .throws
  | ub => exact .ub
  | abort => exact .abort
  | diverge => exact .diverge

theorem Res.Rel.refl {α : Type} {R : α → α → Prop} (hR : ∀ a, R a a) (a : Res α) : Res.Rel R a a := by
  cases a with
  | ok a => exact .ok (hR a)
  | throws => exact .throws
  | ub => exact .ub
  | abort => exact .abort
  | diverge => exact .diverge

theorem Res.Rel.mono {α β : Type} {R R' : α → β → Prop} (h : ∀ a b, R a b → R' a b) {a : Res α} {b : Res β}
    (hr : Res.Rel R a b) : Res.Rel R' a b := by
  cases hr with
  | ok h' => exact .ok (h _ _ h')
  | throws => exact .throws
  | ub => exact .ub
  | abort => exact .abort
  | diverge => exact .diverge

theorem Res.Rel.ok_left {α β : Type} {R : α → β → Prop} {a : α} {b : Res β} (h : Res.Rel R (.ok a) b) :
    ∃ y, b = .ok y ∧ R a y := by cases h with | ok h => exact ⟨_, rfl, h⟩

theorem Res.Rel.ok_right {α β : Type} {R : α → β → Prop} {a : Res α} {b : β} (h : Res.Rel R a (.ok b)) :
    ∃ x, a = .ok x ∧ R x b := by cases h with | ok h => exact ⟨_, rfl, h⟩

namespace HG
variable {K : K2Impl}

@[simp] theorem vw_nil (h : Heap K) : vw h [] = [] := rfl
@[simp] theorem vw_none (h : Heap K) (ps : List (Option Nat)) : vw h (none :: ps) = none :: vw h ps := rfl

theorem vw_some {h : Heap K} {p : Nat} {t : K.T} (ht : h[p]? = some t) (ps : List (Option Nat)) :
    vw h (some p :: ps) = some t :: vw h ps := by simp [vw, ht]

theorem vw_congr {h h' : Heap K} {ps : List (Option Nat)} (hs : ∀ a, some a ∈ ps → h'[a]? = h[a]?) :
    vw h' ps = vw h ps := by
  unfold vw
  refine List.map_congr_left fun p hp => ?_
  cases p with
  | none => rfl
  | some a => exact hs a hp

theorem Own.tail {h : Heap K} {p : Option Nat} {ps : List (Option Nat)} (ho : Own h (p :: ps)) : Own h ps := by
  refine ⟨fun a ha => ho.lt a (List.mem_cons_of_mem _ ha), ?_⟩
  have := ho.nodup
  cases p with
  | none => simpa using this
  | some a => simp only [List.filterMap_cons, id] at this; exact (List.nodup_cons.1 this).2

theorem Own.notMem {h : Heap K} {p : Nat} {ps : List (Option Nat)} (ho : Own h (some p :: ps)) : some p ∉ ps := by
  have := ho.nodup
  simp only [List.filterMap_cons, id] at this
  intro hm
  exact (List.nodup_cons.1 this).1 (List.mem_filterMap.2 ⟨some p, hm, rfl⟩)

theorem Own.get {h : Heap K} {p : Nat} {ps : List (Option Nat)} (ho : Own h (some p :: ps)) :
    ∃ t, h[p]? = some t := ⟨_, List.getElem?_eq_getElem (ho.lt p (by simp))⟩

theorem Own.len {h h' : Heap K} {ps : List (Option Nat)} (ho : Own h ps) (hl : h.length ≤ h'.length) : Own h' ps :=
  ⟨fun a ha => lt_of_lt_of_le (ho.lt a ha) hl, ho.nodup⟩

theorem Frame.refl (ps : List (Option Nat)) (h : Heap K) : Frame ps h h := ⟨le_rfl, fun _ _ _ => rfl⟩

theorem Frame.trans {ps : List (Option Nat)} {h h' h'' : Heap K} (a : Frame ps h h') (b : Frame ps h' h'') :
    Frame ps h h'' :=
  ⟨a.len.trans b.len, fun x hx hn => (b.same x (lt_of_lt_of_le hx a.len) hn).trans (a.same x hx hn)⟩

theorem Frame.mono {ps qs : List (Option Nat)} {h h' : Heap K} (a : Frame ps h h')
    (hs : ∀ x, some x ∈ ps → some x ∈ qs) : Frame qs h h' :=
  ⟨a.len, fun x hx hn => a.same x hx (fun hm => hn (hs x hm))⟩

theorem Frame.set {ps : List (Option Nat)} {h : Heap K} {p : Nat} (hp : some p ∈ ps) (t : K.T) :
    Frame ps h (h.set p t) :=
  ⟨by simp, fun a _ hn => List.getElem?_set_ne (fun he => hn (by rw [← he]; exact hp))⟩

theorem Frame.push (ps : List (Option Nat)) (h : Heap K) (t : K.T) : Frame ps h (h ++ [t]) :=
  ⟨by simp, fun _ hx _ => List.getElem?_append_left hx⟩

theorem treesContain_eq {h : Heap K} {e : Edge} : ∀ {ps : List (Option Nat)}, Own h ps →
    treesContain K e h ps = .ok (DK.treesContain K e (vw h ps)) := by
  intro ps
  induction ps with
  | nil => intro _; rfl
  | cons p ps ih =>
    intro ho
    cases p with
    | none => exact ih ho.tail
    | some a =>
      obtain ⟨t, ht⟩ := ho.get
      rw [vw_some ht]
      simp only [treesContain, DK.treesContain, rd_of ht, Res.ok_bind]
      split
      · rfl
      · exact ih ho.tail

theorem contains_eq {h : Heap K} {o : HG} (ho : Own h o.ps) (e : Edge) : contains h o e = (view h o).contains e := by
  unfold contains DK.contains
  cases hc : o.c0.contains e with
  | ok b => simp [view, hc, treesContain_eq ho]
  | _ => simp [view, hc]

theorem treesNeigh_eq {h : Heap K} {x : Nat} : ∀ {ps : List (Option Nat)}, Own h ps →
    treesNeigh K x h ps = .ok (DK.treesNeigh K x (vw h ps)) := by
  intro ps
  induction ps with
  | nil => intro _; rfl
  | cons p ps ih =>
    intro ho
    cases p with
    | none => exact ih ho.tail
    | some a =>
      obtain ⟨t, ht⟩ := ho.get
      rw [vw_some ht]
      simp only [treesNeigh, DK.treesNeigh, rd_of ht, Res.ok_bind, ih ho.tail]

theorem Own.take {h : Heap K} {ps : List (Option Nat)} (ho : Own h ps) (n : Nat) : Own h (ps.take n) :=
  ⟨fun a ha => ho.lt a (List.mem_of_mem_take ha), ho.nodup.sublist ((List.take_sublist n ps).filterMap id)⟩

theorem listNeighbour_eq {h : Heap K} {o : HG} (ho : Own h o.ps) (x : Nat) :
    listNeighbour h o x = (view h o).listNeighbour x := by
  unfold listNeighbour DK.listNeighbour
  rw [treesNeigh_eq (ho.take _)]
  cases hc : o.c0.listNeighbours x with
  | ok b => simp [view, hc, vw, List.map_take]
  | _ => simp [view, hc]

/-- What a scan that may change trees in place returns. -/
def ScanOk (ps : List (Option Nat)) (h : Heap K) (v : Bool × List (Option K.T)) (r : Res (Bool × Heap K)) : Prop :=
  ∃ h', r = .ok (v.1, h') ∧ vw h' ps = v.2 ∧ Frame ps h h' ∧ h'.length = h.length

theorem scan_some {h : Heap K} {p : Nat} {t t' : K.T} {ps : List (Option Nat)} (ho : Own h (some p :: ps))
    (_ht : h[p]? = some t) : vw (h.set p t') ps = vw h ps ∧ (h.set p t')[p]? = some t' := by
  refine ⟨vw_congr fun a ha => List.getElem?_set_ne ?_, ?_⟩
  · rintro rfl; exact ho.notMem ha
  · have := ho.lt p (by simp)
    simp [this]

theorem forcedScan_ok {e : Edge} : ∀ {ps : List (Option Nat)} {h : Heap K}, Own h ps →
    ScanOk ps h (DK.forcedScan K e (vw h ps)) (forcedScan K e h ps) := by
  intro ps
  induction ps with
  | nil => intro h _; exact ⟨h, rfl, rfl, Frame.refl _ _, rfl⟩
  | cons p ps ih =>
    intro h ho
    cases p with
    | none =>
      obtain ⟨h', h1, h2, h3, h4⟩ := ih ho.tail
      exact ⟨h', h1, by simp only [vw_none, DK.forcedScan]; rw [h2], h3.mono (fun x hx => List.mem_cons_of_mem _ hx), h4⟩
    | some a =>
      obtain ⟨t, ht⟩ := ho.get
      have hlt := ho.lt a (by simp)
      obtain ⟨s1, s2⟩ := scan_some (t' := (K.adjForced t e).2) ho ht
      rw [vw_some ht]
      simp only [ScanOk, forcedScan, DK.forcedScan, rd_of ht, wr_of hlt, Res.ok_bind]
      split
      · rename_i hf
        refine ⟨_, rfl, ?_, Frame.set (by simp) _, by simp⟩
        rw [vw_some s2, s1]
      · have ho' : Own (h.set a (K.adjForced t e).2) ps := ho.tail.len (by simp)
        obtain ⟨h', h1, h2, h3, h4⟩ := ih ho'
        rw [s1] at h1 h2
        refine ⟨h', h1, ?_, (Frame.set (by simp) _).trans (h3.mono (fun x hx => List.mem_cons_of_mem _ hx)), by simpa using h4⟩
        have hs : h'[a]? = some (K.adjForced t e).2 := by
          rw [h3.same a (by simpa using hlt) ho.notMem]; exact s2
        rw [vw_some hs, h2]

theorem eraseScan_ok {e : Edge} : ∀ {ps : List (Option Nat)} {h : Heap K}, Own h ps →
    ScanOk ps h (DK.eraseScan K e (vw h ps)) (eraseScan K e h ps) := by
  intro ps
  induction ps with
  | nil => intro h _; exact ⟨h, rfl, rfl, Frame.refl _ _, rfl⟩
  | cons p ps ih =>
    intro h ho
    cases p with
    | none =>
      obtain ⟨h', h1, h2, h3, h4⟩ := ih ho.tail
      exact ⟨h', h1, by simp only [vw_none, DK.eraseScan]; rw [h2], h3.mono (fun x hx => List.mem_cons_of_mem _ hx), h4⟩
    | some a =>
      obtain ⟨t, ht⟩ := ho.get
      have hlt := ho.lt a (by simp)
      obtain ⟨s1, s2⟩ := scan_some (t' := (K.erase t e).2) ho ht
      rw [vw_some ht]
      simp only [ScanOk, eraseScan, DK.eraseScan, rd_of ht, wr_of hlt, Res.ok_bind]
      split
      · refine ⟨_, rfl, ?_, Frame.set (by simp) _, by simp⟩
        rw [vw_some s2, s1]
      · have ho' : Own (h.set a (K.erase t e).2) ps := ho.tail.len (by simp)
        obtain ⟨h', h1, h2, h3, h4⟩ := ih ho'
        rw [s1] at h1 h2
        refine ⟨h', h1, ?_, (Frame.set (by simp) _).trans (h3.mono (fun x hx => List.mem_cons_of_mem _ hx)), by simpa using h4⟩
        have hs : h'[a]? = some (K.erase t e).2 := by
          rw [h3.same a (by simpa using hlt) ho.notMem]; exact s2
        rw [vw_some hs, h2]

theorem selectLevel_eq {S : Sizing} {m : Nat} {h : Heap K} : ∀ {ps : List (Option Nat)} {i acc : Nat}, Own h ps →
    selectLevel K S m h ps i acc = .ok (DK.selectLevel K S m (vw h ps) i acc) := by
  intro ps
  induction ps with
  | nil => intro i acc _; rfl
  | cons p ps ih =>
    intro i acc ho
    cases p with
    | none =>
      simp only [selectLevel, vw_none, DK.selectLevel]
      split
      · rfl
      · exact ih ho.tail
    | some a =>
      obtain ⟨t, ht⟩ := ho.get
      rw [vw_some ht]
      simp only [selectLevel, DK.selectLevel, rd_of ht, Res.ok_bind]
      split
      · rfl
      · exact ih ho.tail

/-- `qs` comes from `ps` by resetting some pointers. -/
def Sub (qs ps : List (Option Nat)) : Prop := List.Forall₂ (fun q p => q = none ∨ q = p) qs ps

theorem Sub.refl (ps : List (Option Nat)) : Sub ps ps := by
  induction ps with
  | nil => exact .nil
  | cons p ps ih => exact .cons (Or.inr rfl) ih

theorem Sub.mem {qs ps : List (Option Nat)} (h : Sub qs ps) {a : Nat} (ha : some a ∈ qs) : some a ∈ ps := by
  induction h with
  | nil => exact ha
  | cons h1 _ ih =>
    rcases List.mem_cons.1 ha with h2 | h2
    · rcases h1 with h1 | h1
      · rw [h1] at h2; cases h2
      · rw [← h1, ← h2]; exact List.mem_cons_self
    · exact List.mem_cons_of_mem _ (ih h2)

theorem Sub.sublist {qs ps : List (Option Nat)} (h : Sub qs ps) : (qs.filterMap id).Sublist (ps.filterMap id) := by
  induction h with
  | nil => exact List.Sublist.refl _
  | @cons q p qs ps h1 _ ih =>
    rcases h1 with rfl | rfl
    · cases p with
      | none => simpa using ih
      | some a => simpa using ih.cons a
    · cases q with
      | none => simpa using ih
      | some a => simpa using ih.cons_cons a

theorem Own.sub {h : Heap K} {qs ps : List (Option Nat)} (ho : Own h ps) (hs : Sub qs ps) : Own h qs :=
  ⟨fun a ha => ho.lt a (hs.mem ha), ho.nodup.sublist hs.sublist⟩

theorem sweep_ok {h : Heap K} : ∀ {ps : List (Option Nat)}, Own h ps →
    ∃ qs, sweep K h ps = .ok ((DK.sweep K (vw h ps)).1, qs) ∧ vw h qs = (DK.sweep K (vw h ps)).2 ∧ Sub qs ps := by
  intro ps
  induction ps with
  | nil => intro _; exact ⟨[], rfl, rfl, .nil⟩
  | cons p ps ih =>
    intro ho
    obtain ⟨qs, h1, h2, h3⟩ := ih ho.tail
    cases p with
    | none =>
      refine ⟨none :: qs, ?_, ?_, .cons (Or.inl rfl) h3⟩
      · simp only [sweep, h1, Res.ok_bind, vw_none, DK.sweep]
      · simp only [vw_none, DK.sweep, h2]
    | some a =>
      obtain ⟨t, ht⟩ := ho.get
      rw [vw_some ht]
      simp only [sweep, DK.sweep, rd_of ht, Res.ok_bind, h1]
      split
      · exact ⟨_, rfl, by simp [h2], .cons (Or.inl rfl) h3⟩
      · exact ⟨_, rfl, by rw [vw_some ht, h2], .cons (Or.inr rfl) h3⟩

theorem mergeUpTo_ok {tmp : Nat} : ∀ {n : Nat} {ps : List (Option Nat)} {h : Heap K} {t : K.T}, Own h ps →
    some tmp ∉ ps → h[tmp]? = some t →
    ∃ h' qs, mergeUpTo K tmp n h ps = .ok (h', qs) ∧ vw h' qs = (DK.mergeUpTo K n t (vw h ps)).2 ∧
      h'[tmp]? = some (DK.mergeUpTo K n t (vw h ps)).1 ∧ Sub qs ps ∧ h'.length = h.length ∧
      ∀ a, a ≠ tmp → h'[a]? = h[a]? := by
  intro n
  induction n with
  | zero => intro ps h t ho hn ht; exact ⟨h, ps, rfl, rfl, ht, Sub.refl _, rfl, fun _ _ => rfl⟩
  | succ n ih =>
    intro ps h t ho hn ht
    cases ps with
    | nil => exact ⟨h, [], rfl, rfl, ht, .nil, rfl, fun _ _ => rfl⟩
    | cons p ps =>
      have hn' : some tmp ∉ ps := fun hm => hn (List.mem_cons_of_mem _ hm)
      cases p with
      | none =>
        obtain ⟨h', qs, h1, h2, h3, h4, h5, h6⟩ := ih ho.tail hn' ht
        refine ⟨h', none :: qs, ?_, ?_, ?_, .cons (Or.inl rfl) h4, h5, h6⟩
        · simp only [mergeUpTo, h1, Res.ok_bind]
        · simp only [vw_none, DK.mergeUpTo, h2]
        · simp only [vw_none, DK.mergeUpTo, h3]
      | some q =>
        obtain ⟨u, hu⟩ := ho.get
        have hlt : tmp < h.length := (List.getElem?_eq_some_iff.1 ht).1
        have hq : q ≠ tmp := by rintro rfl; exact hn (by simp)
        have hv : vw (h.set tmp (K.union t u)) ps = vw h ps :=
          vw_congr fun a ha => List.getElem?_set_ne (by rintro rfl; exact hn' ha)
        have ho' : Own (h.set tmp (K.union t u)) ps := ho.tail.len (by simp)
        have ht' : (h.set tmp (K.union t u))[tmp]? = some (K.union t u) := by simp [hlt]
        obtain ⟨h', qs, h1, h2, h3, h4, h5, h6⟩ := ih ho' hn' ht'
        rw [hv] at h2 h3
        refine ⟨h', none :: qs, ?_, ?_, ?_, .cons (Or.inl rfl) h4, by simpa using h5, ?_⟩
        · simp only [mergeUpTo, rd_of ht, rd_of hu, wr_of hlt, h1, Res.ok_bind]
        · rw [vw_some hu]; simp only [vw_none, DK.mergeUpTo, h2]
        · rw [vw_some hu]; simp only [DK.mergeUpTo, h3]
        · intro a ha
          rw [h6 a ha, List.getElem?_set_ne (Ne.symm ha)]

theorem mergeAll_ok {tmp : Nat} : ∀ {ps : List (Option Nat)} {h : Heap K} {t : K.T}, Own h ps →
    some tmp ∉ ps → h[tmp]? = some t →
    ∃ h' t', mergeAll K (some tmp) h ps = .ok h' ∧ DK.mergeAll K (some t) (vw h ps) = .ok (some t') ∧
      h'[tmp]? = some t' ∧ h'.length = h.length ∧ ∀ a, a ≠ tmp → h'[a]? = h[a]? := by
  intro ps
  induction ps with
  | nil => intro h t _ _ ht; exact ⟨h, t, rfl, rfl, ht, rfl, fun _ _ => rfl⟩
  | cons p ps ih =>
    intro h t ho hn ht
    have hn' : some tmp ∉ ps := fun hm => hn (List.mem_cons_of_mem _ hm)
    cases p with
    | none =>
      obtain ⟨h', t', h1, h2, h3⟩ := ih ho.tail hn' ht
      exact ⟨h', t', h1, h2, h3⟩
    | some q =>
      obtain ⟨u, hu⟩ := ho.get
      have hlt : tmp < h.length := (List.getElem?_eq_some_iff.1 ht).1
      have hv : vw (h.set tmp (K.union t u)) ps = vw h ps :=
        vw_congr fun a ha => List.getElem?_set_ne (by rintro rfl; exact hn' ha)
      have ho' : Own (h.set tmp (K.union t u)) ps := ho.tail.len (by simp)
      have ht' : (h.set tmp (K.union t u))[tmp]? = some (K.union t u) := by simp [hlt]
      obtain ⟨h', t', h1, h2, h3, h4, h5⟩ := ih ho' hn' ht'
      rw [hv] at h2
      refine ⟨h', t', ?_, ?_, h3, by simpa using h4, ?_⟩
      · simp only [mergeAll, use, rd_of ht, rd_of hu, wr_of hlt, h1, Res.ok_bind]
      · rw [vw_some hu]; simp only [DK.mergeAll, h2]
      · intro a ha
        rw [h5 a ha, List.getElem?_set_ne (Ne.symm ha)]

theorem mergeAll_null : ∀ {ps : List (Option Nat)} {h : Heap K}, Own h ps →
    (mergeAll K none h ps = .ok h ∧ DK.mergeAll K none (vw h ps) = .ok none) ∨
    (mergeAll K none h ps = .ub ∧ DK.mergeAll K none (vw h ps) = .ub) := by
  intro ps
  induction ps with
  | nil => intro h _; exact Or.inl ⟨rfl, rfl⟩
  | cons p ps ih =>
    intro h ho
    cases p with
    | none => exact ih ho.tail
    | some q =>
      obtain ⟨u, hu⟩ := ho.get
      refine Or.inr ⟨rfl, ?_⟩
      rw [vw_some hu]
      rfl

/-- The outcome of a call on the object `o` in the heap `h`, against the value level. -/
def After (h : Heap K) (o : HG) (r : Heap K × HG) (g : DK K) : Prop :=
  g = view r.1 r.2 ∧ Own r.1 r.2.ps ∧ Frame o.ps h r.1 ∧ ∀ a, some a ∈ r.2.ps → some a ∈ o.ps ∨ h.length ≤ a

theorem vw_set (h : Heap K) {ps : List (Option Nat)} {i a : Nat} {t : K.T} (ht : h[a]? = some t) :
    vw h (ps.set i (some a)) = (vw h ps).set i (some t) := by
  simp [vw, List.map_set, ht]

theorem filterMap_set_nodup {ps : List (Option Nat)} {i a : Nat} (hn : (ps.filterMap id).Nodup) (ha : some a ∉ ps) :
    ((ps.set i (some a)).filterMap id).Nodup := by
  induction ps generalizing i with
  | nil => simp
  | cons p ps ih =>
    have ha' : some a ∉ ps := fun hm => ha (List.mem_cons_of_mem _ hm)
    have hps : (ps.filterMap id).Nodup := by
      cases p with
      | none => simpa using hn
      | some b => simp only [List.filterMap_cons, id] at hn; exact (List.nodup_cons.1 hn).2
    cases i with
    | zero =>
      simp only [List.set_cons_zero, List.filterMap_cons, id]
      refine List.nodup_cons.2 ⟨fun hm => ?_, hps⟩
      obtain ⟨q, h1, h2⟩ := List.mem_filterMap.1 hm
      exact ha' (by rw [← (show q = some a from h2)]; exact h1)
    | succ i =>
      simp only [List.set_cons_succ]
      cases p with
      | none => simpa using ih hps ha'
      | some b =>
        simp only [List.filterMap_cons, id] at hn ⊢
        refine List.nodup_cons.2 ⟨fun hm => ?_, ih hps ha'⟩
        obtain ⟨q, h1, h2⟩ := List.mem_filterMap.1 hm
        replace h2 : q = some b := h2
        rcases List.mem_or_eq_of_mem_set h1 with h3 | h3
        · exact (List.nodup_cons.1 hn).1 (List.mem_filterMap.2 ⟨q, h3, h2⟩)
        · rw [h3] at h2
          injection h2 with h2
          exact ha (by rw [h2]; exact List.mem_cons_self)

theorem Own.set {h : Heap K} {ps : List (Option Nat)} {i a : Nat} (ho : Own h ps) (hlt : a < h.length)
    (ha : some a ∉ ps) : Own h (ps.set i (some a)) := by
  refine ⟨fun b hb => ?_, filterMap_set_nodup ho.nodup ha⟩
  rcases List.mem_or_eq_of_mem_set hb with h1 | h1
  · exact ho.lt b h1
  · injection h1 with h1; rw [h1]; exact hlt

theorem containsForced_rel {h : Heap K} {o : HG} (ho : Own h o.ps) (e : Edge) :
    Res.Rel (fun (r : Bool × Heap K) (s : Bool × DK K) => r.1 = s.1 ∧ s.2 = view r.2 o ∧ Frame o.ps h r.2 ∧
      r.2.length = h.length) (containsForced h o e) ((view h o).containsForced e) := by
  unfold containsForced DK.containsForced
  refine Res.Rel.bind (R := fun a b => a = b) (Res.Rel.refl (fun _ => rfl) _) ?_
  rintro b _ rfl
  cases b with
  | true => exact .ok ⟨rfl, rfl, Frame.refl _ _, rfl⟩
  | false =>
    obtain ⟨h', h1, h2, h3, h4⟩ := forcedScan_ok (e := e) ho
    simp only [Bool.false_eq_true, if_false]
    rw [h1]
    exact .ok ⟨rfl, by simp only [view, h2], h3, h4⟩

theorem flush_rel {h : Heap K} {o : HG} (ho : Own h o.ps) (e : Edge) (i : Nat) :
    Res.Rel (After h o) (flush h o e i) (do
        let conv ← (view h o).c0.converted
        let c ← (view h o).c0.clean
        let m := DK.mergeUpTo K (i + 1) (K.build (conv ++ [e]) o.nv) (vw h o.ps)
        .ok { view h o with maxR := max i o.maxR, c0 := c, ks := m.2.set i (some m.1), nTotal := o.nTotal + 1 }) := by
  unfold flush
  refine Res.Rel.bind (R := fun a b => a = b) (Res.Rel.refl (fun _ => rfl) _) ?_
  rintro conv _ rfl
  refine Res.Rel.bind (R := fun a b => a = b) (Res.Rel.refl (fun _ => rfl) _) ?_
  rintro c _ rfl
  have hp : Frame o.ps h (h ++ [K.build (conv ++ [e]) o.nv]) := Frame.push _ _ _
  have hn : some h.length ∉ o.ps := fun hm => lt_irrefl _ (ho.lt _ hm)
  have hv : vw (h ++ [K.build (conv ++ [e]) o.nv]) o.ps = vw h o.ps :=
    vw_congr fun a ha => List.getElem?_append_left (ho.lt a ha)
  obtain ⟨h', qs, h1, h2, h3, h4, h5, h6⟩ := mergeUpTo_ok (n := i + 1) (ho.len hp.len) hn
    (t := K.build (conv ++ [e]) o.nv) (by simp)
  rw [hv] at h2 h3
  rw [h1]
  have hlen : h.length < h'.length := by rw [h5]; simp
  have hq : some h.length ∉ qs := fun hm => hn (h4.mem hm)
  refine .ok ⟨?_, ?_, ⟨le_of_lt hlen, ?_⟩, ?_⟩
  · simp only [view, vw_set h' h3, h2]
  · exact (((ho.len hp.len).sub h4).len h5.ge).set hlen hq
  · intro a ha hna
    rw [h6 a (ne_of_lt ha), hp.same a ha hna]
  · intro a ha
    rcases List.mem_or_eq_of_mem_set ha with hx | hx
    · exact Or.inl (h4.mem hx)
    · injection hx with hx; exact Or.inr hx.ge

theorem addEdge_rel (S : Sizing) {h : Heap K} {o : HG} (ho : Own h o.ps) (e : Edge) :
    Res.Rel (After h o) (addEdge S h o e) ((view h o).addEdge S e) := by
  unfold addEdge DK.addEdge
  refine Res.Rel.bind (containsForced_rel ho e) ?_
  rintro ⟨b, h'⟩ ⟨b', g'⟩ ⟨h1, h2, h3, h4⟩
  simp only at h1 h2 h3 h4
  subst h1 h2
  have ho' : Own h' o.ps := ho.len h4.ge
  cases b with
  | true => exact .ok ⟨rfl, ho', h3, fun a ha => Or.inl ha⟩
  | false =>
    simp only [Bool.false_eq_true, if_false]
    by_cases hsz : o.c0.size < S.maxsz (max o.nv o.nTotal) 0
    · rw [if_pos hsz, if_pos (show (view h' o).c0.size < S.maxsz (max (view h' o).nv (view h' o).nTotal) 0 from hsz)]
      refine Res.Rel.bind (R := fun a b => a = b) (Res.Rel.refl (fun _ => rfl) _) ?_
      rintro c _ rfl
      exact .ok ⟨rfl, ho', h3, fun a ha => Or.inl ha⟩
    · rw [if_neg hsz, if_neg (show ¬ (view h' o).c0.size < S.maxsz (max (view h' o).nv (view h' o).nTotal) 0 from hsz),
        selectLevel_eq ho', Res.ok_bind]
      simp only [view]
      cases hs : DK.selectLevel K S (max o.nv o.nTotal) (vw h' o.ps) 0 (S.maxsz (max o.nv o.nTotal) 0) with
      | none => exact .throws
      | some i =>
        refine (flush_rel ho' e i).mono ?_
        rintro ⟨h'', o''⟩ g ⟨a1, a2, a3, a4⟩
        exact ⟨a1, a2, h3.trans a3, fun a ha => (a4 a ha).imp_right (fun hx => by omega)⟩

theorem rebuildPrep_rel (S : Sizing) {h : Heap K} {o : HG} (ho : Own h o.ps) :
    Res.Rel (fun (r : Bool × Heap K × HG) (s : Bool × DK K) => r.1 = s.1 ∧ After h o r.2 s.2)
      (rebuildPrep S h o) ((view h o).rebuildPrep S) := by
  unfold rebuildPrep DK.rebuildPrep
  by_cases hz : o.c0.size = 0
  · rw [if_pos hz, if_pos (show (view h o).c0.size = 0 from hz), contains_eq ho]
    refine Res.Rel.bind (R := fun a b => a = b) (Res.Rel.refl (fun _ => rfl) _) ?_
    rintro oo _ rfl
    refine Res.Rel.bind (addEdge_rel S ho (1, 1)) ?_
    intro r g hr
    exact .ok ⟨rfl, hr⟩
  · rw [if_neg hz, if_neg (show ¬ (view h o).c0.size = 0 from hz)]
    exact .ok ⟨rfl, rfl, ho, Frame.refl _ _, fun a ha => Or.inl ha⟩

/-- What `rebuildDrain` returns: nothing, or a new tree. -/
theorem rebuildDrain_rel {h : Heap K} {o : HG} :
    Res.Rel (fun (r : Option Nat × Heap K × C0) (s : Option K.T × C0) => r.2.2 = s.2 ∧ Frame o.ps h r.2.1 ∧
        ((r.1 = none ∧ s.1 = none ∧ r.2.1 = h) ∨ ∃ t, r.1 = some h.length ∧ s.1 = some t ∧ r.2.1 = h ++ [t]))
      (rebuildDrain h o) ((view h o).rebuildDrain) := by
  unfold rebuildDrain DK.rebuildDrain
  by_cases hz : o.c0.size > 0
  · rw [if_pos hz, if_pos (show (view h o).c0.size > 0 from hz)]
    refine Res.Rel.bind (R := fun a b => a = b) (Res.Rel.refl (fun _ => rfl) _) ?_
    rintro conv _ rfl
    refine Res.Rel.bind (R := fun a b => a = b) (Res.Rel.refl (fun _ => rfl) _) ?_
    rintro c _ rfl
    exact .ok ⟨rfl, Frame.push _ _ _, Or.inr ⟨_, rfl, rfl, rfl⟩⟩
  · rw [if_neg hz, if_neg (show ¬ (view h o).c0.size > 0 from hz)]
    exact .ok ⟨rfl, Frame.refl _ _, Or.inl ⟨rfl, rfl, rfl⟩⟩

theorem vw_replicate (h : Heap K) (n : Nat) : vw h (List.replicate n none) = List.replicate n none := by
  simp [vw]

theorem wr_rel {α β : Type} {l : List α} {l' : List β} (hl : l.length = l'.length) (i : Nat) (a : α) (b : β) :
    Res.Rel (fun x y => i < l.length ∧ x = l.set i a ∧ y = l'.set i b) (wr l i a) (wr l' i b) := by
  unfold wr
  by_cases hi : i < l.length
  · rw [if_pos hi, if_pos (hl ▸ hi)]; exact .ok ⟨hi, rfl, rfl⟩
  · rw [if_neg hi, if_neg (hl ▸ hi)]; exact .ub

theorem own_replicate (h : Heap K) (n : Nat) : Own h (List.replicate n none) :=
  ⟨fun a ha => (by rw [List.mem_replicate] at ha; cases ha.2), by simp⟩

theorem rebuild_rel (S : Sizing) {h : Heap K} {o : HG} (ho : Own h o.ps) :
    Res.Rel (After h o) (rebuild S h o) ((view h o).rebuild S) := by
  unfold rebuild DK.rebuild
  refine Res.Rel.bind (rebuildPrep_rel S ho) ?_
  rintro ⟨oo, h1, o1⟩ ⟨oo', g1⟩ ⟨e1, e2, ho1, f1, p1⟩
  simp only at e1 e2 ho1 f1 p1
  subst e1 e2
  refine Res.Rel.bind (rebuildDrain_rel) ?_
  rintro ⟨a, h2, c⟩ ⟨t, c'⟩ ⟨d1, d2, d3⟩
  simp only at d1 d2 d3
  subst d1
  have hn : some h1.length ∉ o1.ps := fun hm => lt_irrefl _ (ho1.lt _ hm)
  rcases d3 with ⟨rfl, rfl, rfl⟩ | ⟨t, rfl, rfl, rfl⟩
  · -- no tree was built
    rcases mergeAll_null ho1 with ⟨m1, m2⟩ | ⟨m1, m2⟩
    · simp only [view]
      rw [m1, m2, Res.ok_bind, Res.ok_bind]
      refine Res.Rel.bind (wr_rel (by simp) _ _ _) ?_
      rintro ps ks ⟨hi, rfl, rfl⟩
      cases oo with
      | true =>
        refine .ok ⟨?_, ?_, f1, ?_⟩
        · simp [view, vw]
        · simpa using own_replicate _ _
        · intro a ha; simp at ha
      | false => exact .ub
    · simp only [view]
      rw [m1, m2]
      exact .ub
  · -- the buffer went into a new tree
    have hv : vw (h1 ++ [t]) o1.ps = vw h1 o1.ps :=
      vw_congr fun a ha => List.getElem?_append_left (ho1.lt a ha)
    obtain ⟨h3, t3, m1, m2, m3, m4, m5⟩ := mergeAll_ok (tmp := h1.length) (t := t) (ho1.len d2.len) hn (by simp)
    rw [hv] at m2
    simp only [view]
    rw [m1, m2, Res.ok_bind, Res.ok_bind]
    refine Res.Rel.bind (wr_rel (by simp) _ _ _) ?_
    rintro ps ks ⟨hi, rfl, rfl⟩
    have hlen : h1.length < h3.length := by rw [m4]; simp
    have hf : Frame o.ps h h3 := by
      refine ⟨f1.len.trans (le_of_lt hlen), fun x hx hnx => ?_⟩
      have hx1 : x < h1.length := lt_of_lt_of_le hx f1.len
      rw [m5 x (ne_of_lt hx1), List.getElem?_append_left hx1]
      exact f1.same x hx hnx
    have hown : ∀ h' : Heap K, h3.length ≤ h'.length → ∀ i,
        Own h' ((List.replicate RS (none : Option Nat)).set i (some h1.length)) := fun h' hl i =>
      (own_replicate h' RS).set (lt_of_lt_of_le hlen hl) (fun hm => by rw [List.mem_replicate] at hm; cases hm.2)
    have hfresh : ∀ i a, some a ∈ (List.replicate RS (none : Option Nat)).set i (some h1.length) →
        some a ∈ o.ps ∨ h.length ≤ a := by
      intro i a ha
      rcases List.mem_or_eq_of_mem_set ha with hx | hx
      · rw [List.mem_replicate] at hx; cases hx.2
      · injection hx with hx; rw [hx]; exact Or.inr f1.len
    cases oo with
    | true =>
      refine .ok ⟨?_, hown h3 le_rfl _, hf, hfresh _⟩
      simp only [view, vw_set h3 m3, vw_replicate]
    | false =>
      simp only [Bool.false_eq_true, if_false, use, Res.ok_bind, rd_of m3, wr_of hlen]
      refine .ok ⟨?_, hown _ (by simp) _, ?_, hfresh _⟩
      · have hs : (h3.set h1.length (K.erase t3 (1, 1)).2)[h1.length]? = some (K.erase t3 (1, 1)).2 := by simp [hlen]
        simp only [view, vw_set _ hs, vw_replicate, List.set_set]
      · refine ⟨hf.len.trans (by simp), fun x hx hnx => ?_⟩
        rw [List.getElem?_set_ne (by have := f1.len; omega)]
        exact hf.same x hx hnx

theorem delEdge_rel (S : Sizing) {h : Heap K} {o : HG} (ho : Own h o.ps) (e : Edge) :
    Res.Rel (After h o) (delEdge S h o e) ((view h o).delEdge S e) := by
  unfold delEdge DK.delEdge
  refine Res.Rel.bind (R := fun a b => a = b) (Res.Rel.refl (fun _ => rfl) _) ?_
  rintro ⟨b, c⟩ _ rfl
  cases b with
  | true => exact .ok ⟨rfl, ho, Frame.refl _ _, fun a ha => Or.inl ha⟩
  | false =>
    simp only [Bool.false_eq_true, if_false]
    obtain ⟨h1, e1, e2, e3, e4⟩ := eraseScan_ok (e := e) ho
    have ho1 : Own h1 o.ps := ho.len e4.ge
    obtain ⟨qs, s1, s2, s3⟩ := sweep_ok ho1
    rw [e2] at s1 s2
    rw [e1, Res.ok_bind, s1, Res.ok_bind]
    have hvw : DK.afterErase { view h o with c0 := c } e = ((DK.sweep K (DK.eraseScan K e (vw h o.ps)).2).1,
        view h1 { o with c0 := c, ps := qs, nTotal := if (DK.eraseScan K e (vw h o.ps)).1 then decr o.nTotal else o.nTotal }) := by
      simp only [DK.afterErase, view, s2]
      rfl
    rw [hvw]
    have ho2 : Own h1 qs := ho1.sub s3
    by_cases hr : S.rebuild (DK.sweep K (DK.eraseScan K e (vw h o.ps)).2).1
        (if (DK.eraseScan K e (vw h o.ps)).1 then decr o.nTotal else o.nTotal) = true
    · simp only [view, hr, if_true]
      refine (rebuild_rel S (o := { o with c0 := c, ps := qs, nTotal := if (DK.eraseScan K e (vw h o.ps)).1 then decr o.nTotal else o.nTotal }) ho2).mono ?_
      rintro ⟨h2, o2⟩ g ⟨a1, a2, a3, a4⟩
      exact ⟨a1, a2, e3.trans (a3.mono (fun x hx => s3.mem hx)),
        fun a ha => (a4 a ha).imp (fun hx => s3.mem hx) (fun hx => by omega)⟩
    · simp only [view, hr]
      exact .ok ⟨rfl, ho2, e3, fun a ha => Or.inl (s3.mem ha)⟩

/-- One call on an object: the pointer level and the value level agree in outcome and result. -/
theorem step_rel (S : Sizing) {h : Heap K} {o : HG} (ho : Own h o.ps) (op : Op) :
    Res.Rel (After h o) (step S h o op) ((view h o).step S op) := by
  cases op with
  | add e => exact addEdge_rel S ho e
  | del e => exact delEdge_rel S ho e

end HG
end DK2
