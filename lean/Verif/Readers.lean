import Verif.ReadSpec
import Verif.ConcMany
import Verif.Algo
/-!
# Several threads reading one `DKtree`

The object is shared: its data members and the member iterators that `neighbour_begin`, `edge_begin` and `node_begin` assign and
return by reference.  Also for `DKtree_delay`, whose reading functions and iterator members are the same (DKtree_delay.hpp:57-59,
291-330); the state is then its `DKtree` part.
-/

namespace DK2
namespace DK
variable {K : K2Impl}

/-- The questions of `Query` put to a graph by one thread (DKtree.hpp:82-90, 151-160, 252-262, the iterator loops, Algorithm.hpp). -/
def ask (g : DK K) : Query → Res Ans
  | .contains e => do
    let b ← g.contains e
    .ok (.bool b)
  | .numberEdges => .ok (.num g.nTotal)
  | .numberNodes => .ok (.num g.nv)
  | .neighbours x => do
    let l ← g.listNeighbour x
    .ok (.nodes l)
  | .neighbourLoop x => do
    let l ← g.iface.nb x
    .ok (.nodes l)
  | .edgeLoop => do
    let l ← g.iface.edges
    .ok (.edges l)
  | .nodeLoop => do
    let l ← g.iface.nodeSeq
    .ok (.nodes l)
  | .bfs r => do
    let l ← g.iface.bfs (g.nv + 1) r
    .ok (.nodes l)
  | .dfs r => do
    let l ← g.iface.dfs (g.nv + 1) r
    .ok (.nodes l)
  | .triangles => do
    let i ← g.iface.trianglesHash
    .ok (.num i)

end DK

/-- The members of the object (DKtree.hpp:50-61): `C0`, `k_collection` (the array and the trees it points to), `max_r`,
`n_total_edges`, `n_vertices`, `it_neighbour_begin`, `it_edge_begin` with `it_end`, `it_node_begin` with `it_node_end`.
(`it_neighbour_end` is never assigned.)  `treeNb` and `treeE` are the member iterators of the trees: `k_tree::neighbour_begin`
returns a reference (DKtree.hpp:325-327), so like those of `DKtree` it is taken to assign a member, and `k_tree::edge_begin` too. -/
inductive RLoc where
  | c0 | levels | maxR | nTotal | nv | nbIt | eIt | nodeIt | treeNb | treeE
  deriving DecidableEq, Repr

/-- The object (DKtree.hpp:50-61).  `it_end` and `it_node_end` always hold the end sentinel (DKtree.hpp:277, 288) and are not
kept; the `_i` of `it_edge_begin` is the initial 0 (only a loop by reference changes it).  The member iterators of the trees are
copied right after they are assigned (DKtreeNeighbourIterator.hpp:35, DKtreeEdgeIterator.hpp:62) and their contents are not kept. -/
structure SG (K : K2Impl) where
  g : DK K
  nb : Option (Nat × DK.NbIt)
  eb : Option DK.EIt
  nd : Option DK.NodeIt

namespace SG
variable {K : K2Impl}

/-- Two objects agree on a member. -/
def AgreeAt (s t : SG K) : RLoc → Prop
  | .c0 => s.g.c0 = t.g.c0
  | .levels => s.g.ks = t.g.ks
  | .maxR => s.g.maxR = t.g.maxR
  | .nTotal => s.g.nTotal = t.g.nTotal
  | .nv => s.g.nv = t.g.nv
  | .nbIt => s.nb = t.nb
  | .eIt => s.eb = t.eb
  | .nodeIt => s.nd = t.nd
  | .treeNb => True
  | .treeE => True

/-- `AgreeAt` as a relation for each member. -/
def locs (K : K2Impl) : Locs (SG K) RLoc where
  same l s t := AgreeAt s t l
  refl l s := by cases l <;> first | rfl | trivial
  symm l s t h := by cases l <;> first | exact Eq.symm h | trivial
  trans l s t u h h' := by cases l <;> first | exact Eq.trans h h' | trivial

/-- All members, as read by the copy constructor (Algorithm.hpp:19-21). -/
def everything : List RLoc := [.c0, .levels, .maxR, .nTotal, .nv, .nbIt, .eIt, .nodeIt]

/-- The loop from a copy of the member iterator to `neighbour_end()` (Algorithm.hpp:45, DKtreeNeighbourIterator.hpp:67-118); `x` is
the vertex the iterator was made for.  The fuel is that of `DK.iface`. -/
def nbWalk (g : DK K) (x : Nat) (it : DK.NbIt) : Res Ans := do
  let l ← g.listNeighbour x
  let m ← drive DK.nbCur (g.nbNext x) (l.length + 1) it
  .ok (.nodes (m.map toEtype))

/-- The loop from a copy of `it_edge_begin` to `edge_end()` (Algorithm.hpp:96, DKtreeEdgeIterator.hpp:116-153).  The iterator holds
copies of the buffer and of the array of pointers; it reads the trees.  The fuel is that of `DK.iface` for those copies. -/
def eWalk (it : DK.EIt) : Res Ans := do
  let l ← drive DK.eCur DK.eNext (it.c0.elementsNodes.length + (it.cur.map (fun o => (o.map List.length).getD 0)).sum + 1) it
  .ok (.edges l)

/-- The loop from a copy of `it_node_begin` to `node_end()` (Algorithm.hpp:102, DKtreeNodeIterator.hpp:57-63).  The fuel
is that of `DK.iface`. -/
def ndWalk (n : Nat) (it : DK.NodeIt) : Res Ans := do
  let m ← drive DK.nodeCur (fun it => .ok (DK.nodeNext it)) (n + 1) it
  .ok (.nodes (m.map toEtype))

/-- What a thread does for a question, stretch by stretch.
* `contains` (DKtree.hpp:151-160), counters (82-90), `list_neighbour` (252-262): reads only;
* loops (`for (auto it = g.neighbour_begin(x); it != g.neighbour_end(); ++it)`, Algorithm.hpp:45; 96; 102): assign the member
  iterator (DKtree.hpp:275-279, 286-290, 302-305), copy it, walk;
* traversals: copy the object (Algorithm.hpp:19-21), then work on the copy, which shares the trees.
Simplified: the assignment of a member iterator is one step, and so are the copy of the object with the work on it. -/
def qprog : Query → Prog (SG K) RLoc Ans
  | .contains e => (Prog.read ⟨[.c0], []⟩ (fun s => s.g.c0.contains e)).bind fun b =>
      if b then .ret (.bool true) else .read ⟨[.levels], []⟩ (fun s => .ok (.bool (DK.treesContain K e s.g.ks)))
  | .numberEdges => .read ⟨[.nTotal], []⟩ (fun s => .ok (.num s.g.nTotal))
  | .numberNodes => .read ⟨[.nv], []⟩ (fun s => .ok (.num s.g.nv))
  | .neighbours x => (Prog.read ⟨[.c0], []⟩ (fun s => s.g.c0.listNeighbours x)).bind fun l =>
      .read ⟨[.levels, .maxR], []⟩ (fun s => .ok (.nodes (l ++ DK.treesNeigh K x (s.g.ks.take (s.g.maxR + 1)))))
  | .neighbourLoop x =>
      .act ⟨[.c0, .levels, .maxR], [.nbIt, .treeNb]⟩ (fun s => s.g.nbBegin x >>= fun it => .ok ({ s with nb := some (x, it) }, ())) fun _ =>
      (Prog.read ⟨[.nbIt], []⟩ (fun s => use s.nb)).bind fun it =>
      .read ⟨[.c0, .levels, .maxR], [.treeNb]⟩ (fun s => nbWalk s.g it.1 it.2)
  | .edgeLoop =>
      .act ⟨[.c0, .levels, .nv], [.eIt, .treeE]⟩ (fun s => s.g.eBegin 0 >>= fun it => .ok ({ s with eb := some it }, ())) fun _ =>
      (Prog.read ⟨[.eIt], []⟩ (fun s => use s.eb)).bind fun it => .read ⟨[.levels, .eIt], [.treeE]⟩ (fun _ => eWalk it)
  | .nodeLoop =>
      .act ⟨[.nv], [.nodeIt]⟩ (fun s => .ok ({ s with nd := some s.g.nodeBegin }, ())) fun _ =>
      (Prog.read ⟨[.nodeIt], []⟩ (fun s => use s.nd)).bind fun it => .read ⟨[.nodeIt, .nv], []⟩ (fun s => ndWalk s.g.nv it)
  | .bfs r => .read ⟨everything, [.treeNb]⟩ (fun s => s.g.ask (.bfs r))
  | .dfs r => .read ⟨everything, [.treeNb]⟩ (fun s => s.g.ask (.dfs r))
  | .triangles => .read ⟨everything, [.treeE]⟩ (fun s => s.g.ask .triangles)

/-- A reading thread (calls in sequence, each as in `qprog`; DKtree.hpp:82-310). -/
def rprog {α : Type} : RQ α → Prog (SG K) RLoc α
  | .done a => .ret a
  | .ask q k => (qprog q).bind fun r => rprog (k r)

end SG
end DK2
