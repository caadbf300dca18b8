import Verif.Iter
import Mathlib.Algebra.Order.Field.Basic
import Mathlib.Data.List.Dedup
/-!
# Model of `Algorithm.hpp`

`template<class Graph> class Algorithm` only uses the public interface of the graph; `GraphI` lists what it
observes.  `DK.iface` is this interface of a `DKtree`.
-/

namespace DK2

/-- What `Algorithm<Graph>` observes of its graph (graph/Graph.hpp:38-53): `nb x` is the sequence visited
by the loop `neighbour_begin(x) … neighbour_end()`, `edges` and `nodeSeq` those of the edge and node
loops. -/
structure GraphI where
  nodes : Nat
  nEdges : Nat
  nb : Nat → Res (List Nat)
  listNb : Nat → Res (List Nat)
  edges : Res (List Edge)
  nodeSeq : Res (List Nat)
  contains : Edge → Res Bool

/-- Conversion of an `int` to `etype = uint32_t` (`etype neigh = *neigh_it`, Algorithm.hpp:46). -/
def toEtype (i : Int) : Nat := (i % 2 ^ 32).toNat

namespace DK
variable {K : K2Impl}

/-- The interface of a `DKtree`.  The fuel of the loops is generous: one more than what the list form of
the same observation returns (`C09`, `C10`, `C11` show it is enough). -/
def iface (g : DK K) : GraphI where
  nodes := g.numberNodes
  nEdges := g.numberEdges
  nb x := do
    let l ← g.listNeighbour x
    let m ← g.nbAll x (l.length + 1)
    .ok (m.map toEtype)
  listNb := g.listNeighbour
  edges := g.eAll 0 (g.c0.elementsNodes.length + (g.ks.map (fun o => (o.map (fun t => (K.edges t).length)).getD 0)).sum + 1)
  nodeSeq := do
    let m ← g.nodeAll (g.nv + 1)
    .ok (m.map toEtype)
  contains := g.contains

end DK

namespace GraphI
variable (G : GraphI)

/-- The body of the inner loop of `bfs`/`dfs` (Algorithm.hpp:45-51, 74-80): `push` is `push_back` or
`push_front`. -/
def visit (push : List Nat → Nat → List Nat) (s : List Nat × (Nat → Bool)) (v : Nat) :
    List Nat × (Nat → Bool) :=
  if s.2 v then s else (push s.1 v, upd s.2 v true)

/-- The `while` loop of `bfs`/`dfs` (Algorithm.hpp:40-52, 69-81): the deque, `visited`, `path`. -/
def searchLoop (push : List Nat → Nat → List Nat) : Nat → List Nat → (Nat → Bool) → List Nat →
    Res (List Nat)
  | 0, _, _, _ => .diverge
  | _ + 1, [], _, path => .ok path
  | f + 1, u :: q, vis, path => do
    let l ← G.nb u
    let s := l.foldl (visit push) (q, vis)
    searchLoop push f s.1 s.2 (path ++ [u])

/-- `bfs(root)` (Algorithm.hpp:33-54). -/
def bfs (fuel root : Nat) : Res (List Nat) :=
  G.searchLoop (fun q v => q ++ [v]) fuel [root] (upd (fun _ => false) root true) []

/-- `dfs(root)` (Algorithm.hpp:62-83). -/
def dfs (fuel root : Nat) : Res (List Nat) :=
  G.searchLoop (fun q v => v :: q) fuel [root] (upd (fun _ => false) root true) []

/-- `a += f(x)` for each `x` of a sequence, in a monad that may fail. -/
def sumRes {α : Type} (f : α → Res Nat) : List α → Res Nat
  | [] => .ok 0
  | a :: l => do
    let x ← f a
    let r ← sumRes f l
    .ok (x + r)

/-- `adj_node` (Algorithm.hpp:101-107, 162-171): a map filled in the node loop; a missing key reads as an
empty vector. -/
def adjNode : List Nat → (Nat → List Nat) → Res (Nat → List Nat)
  | [], m => .ok m
  | x :: xs, m => do
    let l ← G.listNb x
    adjNode xs (if l.length = 0 then m else upd m x l)

/-- `count_triangles_dummy_hash()` (Algorithm.hpp:91-120).  Simplified: `edges_table.contains(u,v1)` is
membership in the visited edge sequence (C18 proves the table is such a map).  The `uint` counter is
returned as an `int`. -/
def trianglesHash : Res Int := do
  let es ← G.edges
  let ns ← G.nodeSeq
  let adj ← G.adjNode ns (fun _ => [])
  let es2 ← G.edges
  let c ← sumRes (fun e : Edge =>
    if e.1 ≠ e.2 then
      .ok ((adj e.2).filter (fun u => decide (u ≠ e.1 ∧ u ≠ e.2 ∧ (u, e.1) ∈ es))).length
    else .ok 0) es2
  .ok (toInt c)

/-- The inner loop of `count_triangles_dummy` (Algorithm.hpp:134-139). -/
def dummyInner (v1 : Nat) : List Nat → Res Nat :=
  sumRes (fun v3 => do
    let b ← G.contains (v3, v1)
    .ok (if b then 1 else 0))

/-- `count_triangles_dummy()` (Algorithm.hpp:128-143); the counter is an `unsigned int`. -/
def trianglesDummy : Res Nat := do
  let es ← G.edges
  let c ← sumRes (fun e : Edge =>
    if e.1 ≠ e.2 then do
      let l ← G.nb e.2
      G.dummyInner e.1 l
    else .ok 0) es
  .ok (c % 2 ^ 32)

/-- `is_heavy_hitter` (Algorithm.hpp:273-275): `degree >= sqrt(m)`, the square root read exactly. -/
def heavy (d : Nat) : Bool := decide (G.nEdges ≤ d * d)

/-- `minor_degree` (Algorithm.hpp:277-280). -/
def minor (v1 d1 v2 d2 : Nat) : Bool := decide (d1 < d2 ∨ (d1 = d2 ∧ v1 < v2))

/-- `count_triangles()` (Algorithm.hpp:151-190).  Simplified: the table is iterated in the order of the
edge sequence (the result is a sum, so the order does not matter; an edge visited twice would be counted
once by the table, hence `dedup`); `degree_node[v]` is `adj_node[v].size()`, 0 when missing. -/
def triangles : Res Nat := do
  let es ← G.edges
  let ns ← G.nodeSeq
  let adj ← G.adjNode ns (fun _ => [])
  let deg := fun v => (adj v).length
  let c ← sumRes (fun e : Edge =>
    if G.heavy (deg e.1) ∧ G.heavy (deg e.2) then .ok 0
    else if ¬ G.heavy (deg e.1) ∧ G.heavy (deg e.2) ∧ minor e.1 (deg e.1) e.2 (deg e.2) then
      .ok ((adj e.1).filter (fun u => decide ((u, e.2) ∈ es ∧ minor e.1 (deg e.1) u (deg u)))).length
    else .ok 0) es.dedup
  .ok (c % 2 ^ 32)

/-! ## pageRank, with the `double`s read as elements of an ordered field `F` -/

section PageRank
variable {F : Type} [Field F] [LinearOrder F]

/-- `pr[i] += d`. -/
def addAt (l : List F) (i : Nat) (d : F) : Res (List F) := do
  let x ← rd l i
  wr l i (x + d)

/-- The loop over the outgoing links of `i` (Algorithm.hpp:240-245). -/
def spread (d : F) : List Nat → List F → Res (List F)
  | [], pr => .ok pr
  | v :: vs, pr => do
    let pr ← addAt pr v d
    spread d vs pr

/-- `err` (Algorithm.hpp:249-252). -/
def prErr (pr old : List F) : F := ((pr.zip old).map (fun p => |p.1 - p.2|)).sum

/-- The `for` loop over the nodes (Algorithm.hpp:238-260): `inl` when the convergence test returns from
inside it. -/
def prSweep (alpha conv dsum : F) (n : Nat) (out : List (List Nat)) (old : List F) :
    List Nat → List F → Res (List F ⊕ List F)
  | [], pr => .ok (.inr pr)
  | i :: is, pr => do
    let o ← rd out i
    let x ← rd old i
    let pr ← spread (alpha * x * (1 / (o.length : F))) o pr
    let pr ← addAt pr i (dsum * (1 / (n : F)) + (1 - alpha) * (1 / (n : F)))
    if prErr pr old < n * conv then .ok (.inl pr)
    else prSweep alpha conv dsum n out old is pr

/-- `dangling_sum` (Algorithm.hpp:232-236), before the multiplication by `alpha`. -/
def danglingSum (old : List F) : List Nat → Res F
  | [] => .ok 0
  | k :: ks => do
    let x ← rd old k
    let r ← danglingSum old ks
    .ok (x + r)

/-- One turn of the `while` loop (Algorithm.hpp:229-260). -/
def prTurn (alpha conv : F) (n : Nat) (out : List (List Nat)) (dang : List Nat) (old : List F) :
    Res (List F ⊕ List F) := do
  let d ← danglingSum old dang
  prSweep alpha conv (d * alpha) n out old (List.range n) (List.replicate n 0)

/-- The `while (step < max_iterations)` loop (Algorithm.hpp:228-262). -/
def prLoop (alpha conv : F) (n : Nat) (out : List (List Nat)) (dang : List Nat) : Nat → List F → Res (List F)
  | 0, pr => .ok pr
  | k + 1, pr => do
    let r ← prTurn alpha conv n out dang pr
    match r with
    | .inl pr => .ok pr
    | .inr pr => prLoop alpha conv n out dang k pr

/-- `outgoing_link` (Algorithm.hpp:210-215). -/
def outLinks : List Nat → Res (List (List Nat))
  | [] => .ok []
  | x :: xs => do
    let l ← G.listNb x
    let r ← outLinks xs
    .ok (l :: r)

/-- `pageRank(convergence, max_iterations, alpha)` (Algorithm.hpp:205-269): the ranks of `0..N-1`.
Simplified: when no vertex has an outgoing link, `1.0f / total_nodes` is infinite, and here division by 0 gives 0; the theorems
about this function are about graphs with an edge (the other case: C98). -/
def pageRank (conv : F) (maxIter : Nat) (alpha : F) : Res (List F) := do
  let out ← G.outLinks (List.range G.nodes)
  let total := (out.filter (fun l => !l.isEmpty)).length
  let dang := (List.range G.nodes).filter (fun i => ((out[i]?).getD []).isEmpty)
  prLoop alpha conv G.nodes out dang maxIter (List.replicate G.nodes (1 / (total : F)))

end PageRank

end GraphI
end DK2
