import Verif.Spec
import Verif.Sizing
/-!
# Model of `Container0` (`include/dktree/Container0.hpp`) and `EdgeHashTable`
-/

namespace DK2

/-- `NodeEdge` (EdgeHashTable.hpp:22-97): `_next`/`_prev` with their `_set` flags as `Option`. -/
structure NodeEdge where
  next : Option Nat
  prev : Option Nat
  deriving DecidableEq, Repr

/-- `NodeEdge()` (EdgeHashTable.hpp:27): both flags false. -/
def NodeEdge.fresh : NodeEdge := ⟨none, none⟩

/-- `Container0` (Container0.hpp:270-282).
* `edgeLst` – `EdgeHashTable edge_lst`, an `unordered_map<Edge, unsigned>` (EdgeHashTable.hpp:132-133)
* `adjMap` – `unordered_map<etype,etype> adj_map`
* `elements` – `vector<NodeEdge>`; `elementsNodes` – `vector<Edge>`, a default-constructed `Edge`
  being indeterminate (`none`, Graph.hpp:59)
* `edgeFree` – `vector<int32_t>`, `-1` being `none`
Simplified: `edge_lst_size` (only a `reserve` hint) is omitted; integers are unbounded. -/
structure C0 where
  edgeLst : Edge → Option Nat
  adjMap : Nat → Option Nat
  elements : List NodeEdge
  elementsNodes : List (Option Edge)
  edgeFree : List (Option Nat)
  marked : Nat
  nElements : Nat
  maxEdges : Nat
  nVertices : Nat

namespace C0

/-- `Container0(n_vertices)` (Container0.hpp:25-39). -/
def new (S : Sizing) (n : Nat) : C0 where
  edgeLst := fun _ => none
  adjMap := fun _ => none
  elements := List.replicate (S.maxsz n 0) NodeEdge.fresh
  elementsNodes := List.replicate (S.maxsz n 0) none
  edgeFree := (List.range (S.maxsz n 0)).map some
  marked := 0
  nElements := 0
  maxEdges := S.maxsz n 0
  nVertices := n

/-- `clean()` (Container0.hpp:58-70). The loop writes `edge_free[0..max_edges)`. -/
def clean (c : C0) : Res C0 :=
  if c.edgeFree.length < c.maxEdges then .ub
  else .ok { c with
    nElements := 0
    marked := 0
    edgeLst := fun _ => none
    adjMap := fun _ => none
    elements := List.replicate c.maxEdges NodeEdge.fresh
    elementsNodes := List.replicate c.maxEdges none
    edgeFree := (List.range c.maxEdges).map some ++ c.edgeFree.drop c.maxEdges }

/-- `contains(x,y)` (Container0.hpp:76-85), with `edge_lst.find/contains`
(EdgeHashTable.hpp:157-166). -/
def contains (c : C0) (e : Edge) : Res Bool :=
  match c.edgeLst e with
  | none => .ok false
  | some m => do
    let f ← rd c.edgeFree m
    .ok f.isSome

/-- `resize(new_max_edges)` (Container0.hpp:176-187). -/
def resize (c : C0) (newMax : Nat) : C0 :=
  if newMax > c.maxEdges then
    { c with
      elements := vresize c.elements newMax NodeEdge.fresh
      elementsNodes := vresize c.elementsNodes newMax none
      edgeFree := (vresize c.edgeFree newMax (some 0)).mapIdx
        (fun i v => if c.nElements ≤ i then some i else v)
      maxEdges := newMax }
  else c

/-- The part of `insert` after the capacity check (Container0.hpp:92-103). -/
def insertSlot (c : C0) (e : Edge) : Res C0 := do
  let f ← rd c.edgeFree c.nElements
  let i ← use f
  let en ← wr c.elementsNodes i (some e)
  match c.adjMap e.1 with
  | none =>
    .ok { c with
      nElements := c.nElements + 1
      elementsNodes := en
      edgeLst := upd c.edgeLst e (some i)
      adjMap := upd c.adjMap e.1 (some i) }
  | some h => do
    let ni ← rd c.elements i
    let el1 ← wr c.elements i { ni with next := some h }
    let nh ← rd el1 h
    let el2 ← wr el1 h { nh with prev := some i }
    .ok { c with
      nElements := c.nElements + 1
      elementsNodes := en
      elements := el2
      edgeLst := upd c.edgeLst e (some i)
      adjMap := upd c.adjMap e.1 (some i) }

/-- `insert(x,y,n_edges)` (Container0.hpp:87-105). -/
def insert (S : Sizing) (c : C0) (e : Edge) (nEdges : Nat) : Res C0 :=
  if (c.edgeLst e).isSome then .ok c
  else
    insertSlot
      (if c.nElements ≥ c.elements.length then c.resize (S.maxsz (max c.nVertices nEdges) 0) else c) e

/-- The pointer surgery of `erase` (Container0.hpp:112-124): new `elements` and new `adj_map`. -/
def unlink (c : C0) (x i : Nat) : Res (List NodeEdge × (Nat → Option Nat)) := do
  let n ← rd c.elements i
  match n.next, n.prev with
  | none, none => .ok (c.elements, upd c.adjMap x none)
  | none, some p => do
    let np ← rd c.elements p
    let el ← wr c.elements p { np with next := none }
    .ok (el, c.adjMap)
  | some q, none => do
    let nq ← rd c.elements q
    let el ← wr c.elements q { nq with prev := none }
    .ok (el, upd c.adjMap x (some q))
  | some q, some p => do
    let nq ← rd c.elements q
    let el1 ← wr c.elements q { nq with prev := some p }
    let np ← rd el1 p
    let el2 ← wr el1 p { np with next := some q }
    .ok (el2, c.adjMap)

/-- `erase(x,y)` (Container0.hpp:107-130): whether the edge was found, and the new container. -/
def erase (c : C0) (e : Edge) : Res (Bool × C0) :=
  match c.edgeLst e with
  | none => .ok (false, c)
  | some i => do
    let r ← c.unlink e.1 i
    let ef ← wr c.edgeFree i none
    .ok (true, { c with
      edgeLst := upd c.edgeLst e none
      elements := r.1
      adjMap := r.2
      edgeFree := ef
      marked := c.marked + 1 })

/-- `size()` (Container0.hpp:164-166). -/
def size (c : C0) : Nat := if c.nElements = 0 then 0 else c.nElements - c.marked

/-- The `while` loop of `list_neighbours` (Container0.hpp:136-144), with fuel;
running out of fuel is non-termination. -/
def walk (c : C0) : Nat → Nat → Res (List Nat)
  | 0, _ => .diverge
  | f + 1, k => do
    let o ← rd c.elementsNodes k
    let e ← use o
    let n ← rd c.elements k
    match n.next with
    | none => .ok [e.2]
    | some k' => do
      let r ← walk c f k'
      .ok (e.2 :: r)

/-- `list_neighbours(x, neighbours)` (Container0.hpp:132-146): the appended sequence.
The fuel (one more than the number of slots) is proved sufficient, so `diverge` means a real loop. -/
def listNeighbours (c : C0) (x : Nat) : Res (List Nat) :=
  match c.adjMap x with
  | none => .ok []
  | some k => if c.elements.isEmpty then .ok [] else c.walk (c.elements.length + 1) k

/-- The `while` loop of `neigh_it` (Container0.hpp:150-160): `func`, with its captured state `σ`, is
called on each neighbour in turn. -/
def walkIt {σ : Type} (c : C0) (func : σ → Nat → σ) : Nat → Nat → σ → Res σ
  | 0, _, _ => .diverge
  | f + 1, k, s => do
    let o ← rd c.elementsNodes k
    let e ← use o
    let s := func s e.2
    let n ← rd c.elements k
    match n.next with
    | none => .ok s
    | some k' => walkIt c func f k' s

/-- `neigh_it(x, func)` (Container0.hpp:148-162): state of the callback after the traversal. -/
def neighIt {σ : Type} (c : C0) (x : Nat) (func : σ → Nat → σ) (s : σ) : Res σ :=
  match c.adjMap x with
  | none => .ok s
  | some k => if c.elements.isEmpty then .ok s else c.walkIt func (c.elements.length + 1) k s

/-- The loop that copies the buffer into a vector (`converted`, DKtree.hpp:124-130):
for `j < size_non_marked()`, if `edge_free[j] != -1` push `elements_nodes[edge_free[j]]`. -/
def convertFrom (c : C0) : List Nat → Res (List Edge)
  | [] => .ok []
  | j :: js => do
    let f ← rd c.edgeFree j
    match f with
    | none => convertFrom c js
    | some i => do
      let o ← rd c.elementsNodes i
      let e ← use o
      let r ← convertFrom c js
      .ok (e :: r)

/-- The vector `converted` (DKtree.hpp:124-130, 226-232). -/
def converted (c : C0) : Res (List Edge) := c.convertFrom (List.range c.nElements)

end C0

end DK2
