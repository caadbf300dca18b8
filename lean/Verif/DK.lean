import Verif.C0
import Verif.K2
/-!
# Model of `DKtree` (`include/dktree/DKtree.hpp`)

`K : K2Impl` is the external `k2_tree`, `S : Sizing` the two threshold formulas of `utils.hpp`.
-/

namespace DK2

/-- `DKtree` (DKtree.hpp:50-61): `max_r`, `n_vertices`, `n_total_edges`, `C0`, `k_collection`.
The iterator members are modelled in `Iter.lean`.
Simplified: integers are unbounded except where a decrement of 0 is concerned (`decr`);
`shared_ptr` targets are values (aliasing through shallow copies is modelled in `Alias.lean`). -/
structure DK (K : K2Impl) where
  maxR : Nat
  nv : Nat
  nTotal : Nat
  c0 : C0
  ks : List (Option K.T)

/-- `n_total_edges--` on a `uint64_t`: decrementing 0 wraps (DKtree.hpp:185, 190). -/
def decr (n : Nat) : Nat := if n = 0 then 2 ^ 64 - 1 else n - 1

namespace DK

variable {K : K2Impl}

/-- The object built by `DKtree(n_vertices)` (DKtree.hpp:70-79) when the constructor returns. -/
def init (K : K2Impl) (S : Sizing) (n : Nat) : DK K :=
  ⟨0, n, 0, C0.new S n, List.replicate RS none⟩

/-- `DKtree(n_vertices)` (DKtree.hpp:70-79).  For `n_vertices = 1`, `MAXSZ(1,0) = 2/0 = inf` is
converted to `uint64_t` (Container0.hpp:27), which is undefined. -/
def create (K : K2Impl) (S : Sizing) (n : Nat) : Res (DK K) :=
  if n = 1 then .ub else .ok (init K S n)

/-- The loop `for (i = 0; i < RS; i++) if (k_collection[i] != nullptr && k_collection[i]->adj(x, y))`
(DKtree.hpp:156-159). -/
def treesContain (K : K2Impl) (e : Edge) : List (Option K.T) → Bool
  | [] => false
  | none :: ks => treesContain K e ks
  | some t :: ks => if K.adj t e then true else treesContain K e ks

/-- `contains(x,y)` (DKtree.hpp:151-160). -/
def contains (g : DK K) (e : Edge) : Res Bool := do
  let b ← g.c0.contains e
  if b then .ok true else .ok (treesContain K e g.ks)

/-- The loop of `contains_forced` (DKtree.hpp:172-175); `adj_forced` may modify the tree. -/
def forcedScan (K : K2Impl) (e : Edge) : List (Option K.T) → Bool × List (Option K.T)
  | [] => (false, [])
  | none :: ks => let r := forcedScan K e ks; (r.1, none :: r.2)
  | some t :: ks =>
    let a := K.adjForced t e
    if a.1 then (true, some a.2 :: ks)
    else let r := forcedScan K e ks; (r.1, some a.2 :: r.2)

/-- `contains_forced(x,y)` (DKtree.hpp:167-176). -/
def containsForced (g : DK K) (e : Edge) : Res (Bool × DK K) := do
  let b ← g.c0.contains e
  if b then .ok (true, g)
  else
    let r := forcedScan K e g.ks
    .ok (r.1, { g with ks := r.2 })

/-- The level-selection loop of `add_edge` (DKtree.hpp:111-117): `i` is the index of the head of the
list and `acc` is `max_size`; `none` when the loop runs to `RS`. -/
def selectLevel (K : K2Impl) (S : Sizing) (m : Nat) : List (Option K.T) → Nat → Nat → Option Nat
  | [], _, _ => none
  | k :: ks, i, acc =>
    let acc' := match k with
      | none => acc
      | some t => acc + K.total t
    if S.maxsz m (i + 1) > acc' + 1 then some i else selectLevel K S m ks (i + 1) acc'

/-- The merge loop `for (j = 0; j < n; j++)` of `add_edge` (DKtree.hpp:135-140): the tree `tmp` and
`k_collection` afterwards. -/
def mergeUpTo (K : K2Impl) : Nat → K.T → List (Option K.T) → K.T × List (Option K.T)
  | 0, t, ks => (t, ks)
  | _ + 1, t, [] => (t, [])
  | n + 1, t, none :: ks => let r := mergeUpTo K n t ks; (r.1, none :: r.2)
  | n + 1, t, some u :: ks => let r := mergeUpTo K n (K.union t u) ks; (r.1, none :: r.2)

/-- `add_edge(x,y)` (DKtree.hpp:101-144). -/
def addEdge (S : Sizing) (g : DK K) (e : Edge) : Res (DK K) := do
  let r ← g.containsForced e
  let g := r.2
  if r.1 then .ok g
  else
    let maxSize := S.maxsz (max g.nv g.nTotal) 0
    if g.c0.size < maxSize then do
      let c ← g.c0.insert S e g.nTotal
      .ok { g with c0 := c, nTotal := g.nTotal + 1 }
    else
      match selectLevel K S (max g.nv g.nTotal) g.ks 0 maxSize with
      | none => .throws
      | some i => do
        let conv ← g.c0.converted
        let tmp := K.build (conv ++ [e]) g.nv
        let c ← g.c0.clean
        let m := mergeUpTo K (i + 1) tmp g.ks
        .ok { g with
          maxR := max i g.maxR
          c0 := c
          ks := m.2.set i (some m.1)
          nTotal := g.nTotal + 1 }

/-- The loop of `del_edge` that erases from the first tree holding the edge (DKtree.hpp:188-192). -/
def eraseScan (K : K2Impl) (e : Edge) : List (Option K.T) → Bool × List (Option K.T)
  | [] => (false, [])
  | none :: ks => let r := eraseScan K e ks; (r.1, none :: r.2)
  | some t :: ks =>
    let a := K.erase t e
    if a.1 then (true, some a.2 :: ks)
    else let r := eraseScan K e ks; (r.1, some a.2 :: r.2)

/-- The loop that sums the marked edges and drops trees whose edges are all marked
(DKtree.hpp:194-204). -/
def sweep (K : K2Impl) : List (Option K.T) → Nat × List (Option K.T)
  | [] => (0, [])
  | none :: ks => let r := sweep K ks; (r.1, none :: r.2)
  | some t :: ks =>
    let r := sweep K ks
    if K.marked t = K.total t then (r.1, none :: r.2) else (K.marked t + r.1, some t :: r.2)

/-- The level search of the rebuild (DKtree.hpp:209-215): `RS` when none fits. -/
def rebuildLevel (S : Sizing) (m n : Nat) : Nat :=
  ((List.range RS).find? (fun i => decide (S.maxsz m (i + 1) > n))).getD RS

/-- The rebuild's merge loop (DKtree.hpp:236-241): `tmp` may be null, and calling `unionOp` through
it is undefined. -/
def mergeAll (K : K2Impl) : Option K.T → List (Option K.T) → Res (Option K.T)
  | t, [] => .ok t
  | t, none :: ks => mergeAll K t ks
  | none, some _ :: _ => .ub
  | some t, some u :: ks => mergeAll K (some (K.union t u)) ks

/-- First part of the rebuild, before the buffer is drained (DKtree.hpp:217-223). -/
def rebuildPrep (S : Sizing) (g : DK K) : Res (Bool × DK K) :=
  if g.c0.size = 0 then do
    let oo ← g.contains (1, 1)
    let g' ← g.addEdge S (1, 1)
    .ok (oo, g')
  else .ok (false, g)

/-- Draining the buffer into `tmp` (DKtree.hpp:224-235). -/
def rebuildDrain (g : DK K) : Res (Option K.T × C0) :=
  if g.c0.size > 0 then do
    let conv ← g.c0.converted
    let c ← g.c0.clean
    .ok (some (K.build conv g.nv), c)
  else .ok (none, g.c0)

/-- The rebuild branch of `del_edge` (DKtree.hpp:208-244).  `max_size` (208-212) is computed but
never used, so it is omitted. -/
def rebuild (S : Sizing) (g : DK K) : Res (DK K) := do
  let i := rebuildLevel S (max g.nv g.nTotal) g.nTotal
  let p ← g.rebuildPrep S
  let g := p.2
  let d ← g.rebuildDrain
  let tmp ← mergeAll K d.1 g.ks
  let ks ← wr (List.replicate RS (none : Option K.T)) i tmp
  if p.1 then .ok { g with c0 := d.2, ks := ks }
  else
    match tmp with
    | none => .ub
    | some t => .ok { g with c0 := d.2, ks := ks.set i (some (K.erase t (1, 1)).2) }

/-- The state in which `del_edge` evaluates the rebuild test when the edge was not in the buffer
(DKtree.hpp:188-204), with the number of marked edges. -/
def afterErase (g : DK K) (e : Edge) : Nat × DK K :=
  let r := eraseScan K e g.ks
  let s := sweep K r.2
  (s.1, { g with ks := s.2, nTotal := if r.1 then decr g.nTotal else g.nTotal })

/-- `del_edge(x,y)` (DKtree.hpp:183-246). -/
def delEdge (S : Sizing) (g : DK K) (e : Edge) : Res (DK K) := do
  let r ← g.c0.erase e
  if r.1 then .ok { g with c0 := r.2, nTotal := decr g.nTotal }
  else
    let a := { g with c0 := r.2 }.afterErase e
    if S.rebuild a.1 a.2.nTotal then a.2.rebuild S else .ok a.2

/-- The part of `list_neighbour` over the trees (DKtree.hpp:256-260). -/
def treesNeigh (K : K2Impl) (x : Nat) : List (Option K.T) → List Nat
  | [] => []
  | none :: ks => treesNeigh K x ks
  | some t :: ks => K.neigh t x ++ treesNeigh K x ks

/-- `list_neighbour(x)` (DKtree.hpp:252-262). -/
def listNeighbour (g : DK K) (x : Nat) : Res (List Nat) := do
  let l ← g.c0.listNeighbours x
  .ok (l ++ treesNeigh K x (g.ks.take (g.maxR + 1)))

/-- The tree part of `neigh_it` (DKtree.hpp:428-430): `k_tree::neigh_it` calls `func` on each element
of `neigh(x)` (contract). -/
def treesNeighIt {σ : Type} (K : K2Impl) (x : Nat) (func : σ → Nat → σ) :
    List (Option K.T) → σ → σ
  | [], s => s
  | none :: ks, s => treesNeighIt K x func ks s
  | some t :: ks, s => treesNeighIt K x func ks ((K.neigh t x).foldl func s)

/-- `neigh_it(x, func)` (DKtree.hpp:425-431); `σ` is the state captured by the callback. -/
def neighIt {σ : Type} (g : DK K) (x : Nat) (func : σ → Nat → σ) (s : σ) : Res σ := do
  let s ← g.c0.neighIt x func s
  .ok (treesNeighIt K x func (g.ks.take (g.maxR + 1)) s)

/-- `get_number_edges()` (DKtree.hpp:82-84). -/
def numberEdges (g : DK K) : Nat := g.nTotal

/-- `get_number_nodes()` (DKtree.hpp:87-89). -/
def numberNodes (g : DK K) : Nat := g.nv

/-- One user call. -/
def step (S : Sizing) (g : DK K) : Op → Res (DK K)
  | .add e => g.addEdge S e
  | .del e => g.delEdge S e

/-- A history of user calls from a given graph; an abnormal outcome ends it. -/
def runFrom (S : Sizing) : DK K → List Op → Res (DK K)
  | g, [] => .ok g
  | g, o :: os => do
    let g' ← g.step S o
    runFrom S g' os

/-- A history of user calls on a graph built by `DKtree(n)`. -/
def run (K : K2Impl) (S : Sizing) (n : Nat) (ops : List Op) : Res (DK K) := do
  let g ← create K S n
  runFrom S g ops

/-- `del_edge e` on `g` enters the rebuild branch (DKtree.hpp:207). -/
def rebuilds (S : Sizing) (g : DK K) (e : Edge) : Bool :=
  match g.c0.erase e with
  | .ok (false, c) => S.rebuild ({ g with c0 := c }.afterErase e).1 ({ g with c0 := c }.afterErase e).2.nTotal
  | _ => false

end DK
end DK2
