import Verif.ProgSpec
import Verif.Ser
import Verif.Algo
import Verif.AliasIter
/-!
# Programs over several `DKtree` objects, with copies and a file system (C86)

The objects are those of `Alias.lean`: their trees live in one heap and copies share them.
-/

namespace DK2

namespace HG
variable {K : K2Impl}

/-- `DKtree()` (DKtree.hpp:63), as `DK.blank`. -/
def blank : HG := ⟨0, 0, 0, C0.blank 0 0, List.replicate RS none⟩

/-- The level loop of `load` (DKtree.hpp:380-394): each file found makes a new tree. -/
def loadLevels (d : Dir K) (maxR : Nat) : Nat → Heap K → List (Option Nat) → Heap K × List (Option Nat)
  | _, h, [] => (h, [])
  | l, h, p :: ps =>
    match (if l ≤ maxR then d.kt l else none) with
    | some t => ((loadLevels d maxR (l + 1) (h ++ [t]) ps).1,
        some h.length :: (loadLevels d maxR (l + 1) (h ++ [t]) ps).2)
    | none => ((loadLevels d maxR (l + 1) h ps).1, p :: (loadLevels d maxR (l + 1) h ps).2)

/-- `load(in, dir)` (DKtree.hpp:373-398), as `DK.load`. -/
def load (S : Sizing) (h : Heap K) (o : HG) (d : Dir K) : Res (Heap K × HG) :=
  match d.hdr with
  | none => .throws
  | some f => do
    let c ← C0.insertAll S (C0.blank f.c0nv f.c0max) f.edges
    if f.maxR < o.ps.length then
      .ok ((loadLevels d f.maxR 0 h o.ps).1, ⟨f.maxR, f.nv, f.nTotal, c, (loadLevels d f.maxR 0 h o.ps).2⟩)
    else .ub

/-- The questions: the member functions (DKtree.hpp:82-90, 151-160, 252-262), the iterator loops and `Algorithm` (on a copy of the
object, Algorithm.hpp:21: same members, so the same answers).  Iterators and algorithms read the trees through the pointers; none
is dangling (a `shared_ptr` keeps its tree alive), so they are those of the value `view h o`. -/
def ask (h : Heap K) (o : HG) : Query → Res Ans
  | .contains e => do
    let b ← contains h o e
    .ok (.bool b)
  | .numberEdges => .ok (.num o.nTotal)
  | .numberNodes => .ok (.num o.nv)
  | .neighbours x => do
    let l ← listNeighbour h o x
    .ok (.nodes l)
  | .neighbourLoop x => do
    let l ← (view h o).iface.nb x
    .ok (.nodes l)
  | .edgeLoop => do
    let l ← (view h o).iface.edges
    .ok (.edges l)
  | .nodeLoop => do
    let l ← (view h o).iface.nodeSeq
    .ok (.nodes l)
  | .bfs r => do
    let l ← (view h o).iface.bfs (o.nv + 1) r
    .ok (.nodes l)
  | .dfs r => do
    let l ← (view h o).iface.dfs (o.nv + 1) r
    .ok (.nodes l)
  | .triangles => do
    let i ← (view h o).iface.trianglesHash
    .ok (.num i)

end HG

/-- The memory and the file system of a program: the `DKtree` objects (DKtree.hpp:50-61), the edge iterators held by the user
(DKtreeEdgeIterator.hpp:216-227) and the directories `dktree_serialize` (DKtree.hpp:347-348). -/
structure PState (K : K2Impl) where
  heap : Heap K
  obj : Nat → Option HG
  it : Nat → Option HEIt
  dir : Nat → Dir K

namespace PState
variable {K : K2Impl}

/-- Before the program: nothing constructed, no file (no code). -/
def init (K : K2Impl) : PState K := ⟨[], fun _ => none, fun _ => none, fun _ => Dir.empty K⟩

/-- The object a variable holds; using a variable that was never constructed is no program (no code). -/
def get (w : PState K) (x : Nat) : Res HG := use (w.obj x)

/-- One statement: constructor (DKtree.hpp:70-79), implicit copy constructor or assignment, `add_edge` (DKtree.hpp:101-144), the
questions, `edge_begin` by value (DKtree.hpp:275-279), `*it` and `++it` unless at the end (DKtreeEdgeIterator.hpp:88-90, 116-153,
161-169), `serialize` (DKtree.hpp:346-365), `load` into a default-constructed object (DKtree.hpp:63, 373-398) and
`clean_serialize` (DKtree.hpp:434-439). -/
def step (S : Sizing) (w : PState K) : Cmd → Res (PState K × Ans)
  | .make x n => do
    let o ← HG.create S n
    .ok ({ w with obj := Function.update w.obj x (some o) }, .unit)
  | .copy x y => do
    let o ← w.get y
    .ok ({ w with obj := Function.update w.obj x (some o) }, .unit)
  | .add x e => do
    let o ← w.get x
    let r ← HG.addEdge S w.heap o e
    .ok ({ w with heap := r.1, obj := Function.update w.obj x (some r.2) }, .unit)
  | .ask x q => do
    let o ← w.get x
    let a ← HG.ask w.heap o q
    .ok (w, a)
  | .begin i x => do
    let o ← w.get x
    let t ← HG.eBegin w.heap o 0
    .ok ({ w with it := Function.update w.it i (some t) }, .unit)
  | .fetch i => do
    let t ← use (w.it i)
    match HG.eCur t with
    | none => .ok (w, .edge none)
    | some e => do
      let t' ← HG.eNext w.heap t
      .ok ({ w with it := Function.update w.it i (some t') }, .edge (some e))
  | .save x d => do
    let o ← w.get x
    let f ← (HG.view w.heap o).serialize (w.dir d)
    .ok ({ w with dir := Function.update w.dir d f }, .unit)
  | .load x d clear => do
    let r ← HG.load S w.heap HG.blank (w.dir d)
    .ok ({ w with heap := r.1, obj := Function.update w.obj x (some r.2),
                  dir := if clear then Function.update w.dir d (Dir.empty K) else w.dir }, .unit)

/-- The user's program, with the statements it executes and their answers (calls of DKtree.hpp:63-398, see `step`). -/
def run (S : Sizing) : PState K → UProg → Res (PState K × List (Cmd × Ans))
  | w, .done => .ok (w, [])
  | w, .cmd c k => do
    let r ← step S w c
    let q ← run S r.1 (k r.2)
    .ok (q.1, (c, r.2) :: q.2)

end PState
end DK2
