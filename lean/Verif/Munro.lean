import Verif.Union
import Verif.BitsProofs
import Verif.C0
/-!
# Model of `DKtree_delay_munro` (`include/dktree/DKtree_delay_.hpp`)

The levels are bit-encoded trees (`BT`), because the pending union works on their bit vectors.  `k2_tree(edges, n)`
is `BT.encode`, `adj` is `BT.adj` (rank navigation on those bits), `neigh(x)` lists the `y` with `adj(x,y)` in
increasing order, `total_edges()` is the stored count.
-/

namespace DK2

/-- The compile-time and library parameters: the template argument `k`, the height of a tree over `n` vertices
(union_support.hpp:51-52), the threshold functions (utils.hpp) and whether `NDEBUG` is defined (Makefile line 1
does). -/
structure MPar where
  k : Nat
  H : Nat → Nat
  S : Sizing
  nd : Bool

/-- `neigh(x)` of a tree. -/
def BT.neigh (k : Nat) (t : BT) (x : Nat) : List Nat :=
  (List.range t.nv).filter (fun y => decide (t.adj k (x, y) = some true))

/-- `DKtree_delay_munro` (DKtree_delay_.hpp:51-65, 90-91): `max_r`, `n_vertices`, `n_total_edges`, `C0`,
`k_collection`, `k_collection_copy` (a default-constructed tree is `none`), `tmp_edge`, `union_support`.  The
pointer that `union_support` holds is `&k_collection` of the same object (140).  Simplified: iterator members are
omitted, integers are unbounded. -/
structure DKM where
  maxR : Nat
  nv : Nat
  nTotal : Nat
  c0 : C0
  ks : List (Option BT)
  copy : List (Option BT)
  tmpEdge : Edge
  us : US

namespace DKM

/-- `k2_tree_union_support()` (union_support.hpp:60-62): only `finish` is set; the other members are not read
while it is true. -/
def idleUS : US := ⟨[], [], [], 0, 0, 0, 0, 0, ⟨[], [], 0, 0, 0⟩, RS, 0, 0, true, 0⟩

/-- The object built by `DKtree_delay_munro(n_vertices)` (DKtree_delay_.hpp:69-76) when the constructor returns;
`tuple<etype,etype>` members are value-initialised. -/
def init (P : MPar) (n : Nat) : DKM :=
  ⟨0, n, 0, C0.new P.S n, List.replicate RS none, List.replicate RS none, (0, 0), idleUS⟩

/-- `DKtree_delay_munro(n_vertices)` (DKtree_delay_.hpp:69-76); as `DK.create` for `n_vertices = 1`. -/
def create (P : MPar) (n : Nat) : Res DKM := if n = 1 then .ub else .ok (init P n)

/-- The loops over the levels of `contains` (DKtree_delay_.hpp:152-154, 158-160). -/
def anyAdj (k : Nat) (e : Edge) : List (Option BT) → Res Bool
  | [] => .ok false
  | none :: ks => anyAdj k e ks
  | some t :: ks => do
    let a ← use (t.adj k e)
    if a then .ok true else anyAdj k e ks

/-- `contains(x,y)` (DKtree_delay_.hpp:146-163). -/
def contains (P : MPar) (d : DKM) (e : Edge) : Res Bool := do
  let b ← d.c0.contains e
  if b then .ok true
  else if d.us.finish then anyAdj P.k e d.ks
  else if d.tmpEdge = e then .ok true
  else anyAdj P.k e d.copy

/-- The level search (DKtree_delay_.hpp:108-117). -/
def selectLevel (S : Sizing) (m : Nat) : List (Option BT) → Nat → Nat → Option Nat
  | [], _, _ => none
  | o :: ks, i, acc =>
    let acc' := acc + o.elim 0 BT.ne
    if S.maxsz m (i + 1) > acc' + 1 then some i else selectLevel S m ks (i + 1) acc'

/-- `union_support.unionOperation()`; the depth of its recursion is bounded by the number of levels. -/
def unionStep (P : MPar) (d : DKM) : Res DKM := do
  let r ← US.unionOp (P.k * P.k) P.H (d.ks.length + 1) d.ks d.us
  .ok { d with ks := r.1, us := r.2 }

/-- The flush branch of `add_edge` (DKtree_delay_.hpp:107-143). -/
def flush (P : MPar) (d : DKM) (e : Edge) : Res DKM :=
  match selectLevel P.S (max d.nv d.nTotal) d.ks 0 (P.S.maxsz (max d.nv d.nTotal) 0) with
  | none => .throws
  | some i => do
    let conv ← d.c0.converted
    let c ← d.c0.clean
    let r ← US.create (fun E n => BT.encode P.k (P.H n) n E) (conv ++ [e]) d.nv d.ks i
    let d' ← unionStep P ⟨max i d.maxR, d.nv, d.nTotal, c, r.1, d.ks, e, r.2⟩
    .ok { d' with nTotal := d'.nTotal + 1 }

/-- `add_edge(x,y)` (DKtree_delay_.hpp:93-144).  `assert(union_support.has_finish())` (106) does nothing when
compiled with `NDEBUG`. -/
def addEdge (P : MPar) (d : DKM) (e : Edge) : Res DKM := do
  let d ← unionStep P d
  let b ← contains P d e
  if b then .ok d
  else if d.c0.size < P.S.maxsz (max d.nv d.nTotal) 0 then do
    let c ← d.c0.insert P.S e d.nTotal
    .ok { d with c0 := c, nTotal := d.nTotal + 1 }
  else if d.us.finish || P.nd then flush P d e
  else .abort

/-- `del_edge(x,y)` (DKtree_delay_.hpp:165): an empty body. -/
def delEdge (d : DKM) (_ : Edge) : Res DKM := .ok d

/-- The loops over the levels of `list_neighbour` (DKtree_delay_.hpp:174-178, 181-185). -/
def allNeigh (k x : Nat) : List (Option BT) → List Nat
  | [] => []
  | none :: ks => allNeigh k x ks
  | some t :: ks => t.neigh k x ++ allNeigh k x ks

/-- `list_neighbour(x)` (DKtree_delay_.hpp:167-189). -/
def listNeighbour (P : MPar) (d : DKM) (x : Nat) : Res (List Nat) := do
  let l ← d.c0.listNeighbours x
  if d.us.finish then
    .ok (l ++ (if d.tmpEdge.1 = x then [d.tmpEdge.2] else []) ++ allNeigh P.k x d.ks)
  else .ok (l ++ allNeigh P.k x d.copy)

/-- `get_number_edges()` (DKtree_delay_.hpp:78-80). -/
def numberEdges (d : DKM) : Nat := d.nTotal

/-- `get_number_nodes()` (DKtree_delay_.hpp:82-84). -/
def numberNodes (d : DKM) : Nat := d.nv

/-- One user call. -/
def step (P : MPar) (d : DKM) : Op → Res DKM
  | .add e => addEdge P d e
  | .del e => delEdge d e

/-- A history of user calls; an abnormal outcome ends it. -/
def runFrom (P : MPar) : DKM → List Op → Res DKM
  | d, [] => .ok d
  | d, o :: os => do
    let d' ← step P d o
    runFrom P d' os

/-- A history of user calls on a graph built by `DKtree_delay_munro(n)`. -/
def run (P : MPar) (n : Nat) (ops : List Op) : Res DKM := do
  let d ← create P n
  runFrom P d ops

end DKM
end DK2
