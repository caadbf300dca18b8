import Verif.DK
/-!
# Model of the iterators
`Container0NeighIterator.hpp`, `DKtreeNeighbourIterator.hpp`, `DKtreeNodeIterator.hpp`,
`DKtreeEdgeIterator.hpp`.
-/

namespace DK2

/-- The user's loop `for (it = begin; it != end; ++it) visit(*it)`: `cur` is `*it`, `none` when
`it == end`; the visited values, or `diverge` when the fuel runs out. -/
def drive {σ α : Type} (cur : σ → Option α) (next : σ → Res σ) : Nat → σ → Res (List α)
  | 0, _ => .diverge
  | f + 1, s =>
    match cur s with
    | none => .ok []
    | some a => do
      let s' ← next s
      let r ← drive cur next f s'
      .ok (a :: r)

/-- Conversion of a 32-bit unsigned value to `int` (two's complement). -/
def toInt (y : Nat) : Int :=
  if y % 2 ^ 32 < 2 ^ 31 then ((y % 2 ^ 32 : Nat) : Int) else ((y % 2 ^ 32 : Nat) : Int) - 2 ^ 32

namespace C0

/-- `Container0NeighIterator` (Container0NeighIterator.hpp:11-13): `_ptr` (an `int64_t`, so `-1` is not
a 32-bit vertex; `none` is `-1`) and `k`. -/
structure It where
  ptr : Option Nat
  k : Nat

/-- The constructor (Container0NeighIterator.hpp:22-30), `neighbour_begin(x)` (Container0.hpp:218-220).
Simplified: `k` is left indeterminate by the `else` branch and is 0 here; nothing reads it. -/
def nbBegin (c : C0) (x : Nat) : Res It :=
  match c.adjMap x with
  | none => .ok ⟨none, 0⟩
  | some k =>
    if c.elements.isEmpty then .ok ⟨none, 0⟩
    else do
      let o ← rd c.elementsNodes k
      let e ← use o
      .ok ⟨some e.2, k⟩

/-- `operator++()` (Container0NeighIterator.hpp:42-50). -/
def nbNext (c : C0) (it : It) : Res It := do
  let n ← rd c.elements it.k
  match n.next with
  | some k' => do
    let o ← rd c.elementsNodes k'
    let e ← use o
    .ok ⟨some e.2, k'⟩
  | none => .ok ⟨none, it.k⟩

/-- `operator++(int)` (Container0NeighIterator.hpp:36-40). -/
def nbPost (c : C0) (it : It) : Res It := if it.ptr = none then .ok it else c.nbNext it

end C0

namespace DK
variable {K : K2Impl}

/-- `DKtreeNeighbourIterator` (DKtreeNeighbourIterator.hpp:126-134): `_ptr` (an `int`, `-1` at the end),
the buffer iterator, `_c0_index != -1`, `_curr_ktree` (`-1` is `none`) and the tree iterator, which by
contract runs through `neigh(x)` (the remaining values, the current one first). -/
structure NbIt where
  ptr : Int
  c0it : C0.It
  inC0 : Bool
  cur : Option Nat
  kit : List Nat

/-- The loops `for (_curr_ktree = j; _curr_ktree <= max_r; _curr_ktree++)` that look for the next tree
with a neighbour (DKtreeNeighbourIterator.hpp:33-41, 79-87, 99-107): `ks` is what remains of
`k_collection[0..max_r]` from level `j` on. -/
def seek (K : K2Impl) (x : Nat) : List (Option K.T) → Nat → Option (Nat × List Nat)
  | [], _ => none
  | none :: ks, j => seek K x ks (j + 1)
  | some t :: ks, j => if K.neigh t x ≠ [] then some (j, K.neigh t x) else seek K x ks (j + 1)

/-- Set the iterator on the result of a `seek` (DKtreeNeighbourIterator.hpp:36-38, 43, 83-89). -/
def nbPlace (c : C0.It) : Option (Nat × List Nat) → NbIt
  | some (j, y :: l) => ⟨toInt y, c, false, some j, y :: l⟩
  | some (j, []) => ⟨-1, c, false, some j, []⟩
  | none => ⟨-1, c, false, some RS, []⟩

/-- The constructor (DKtreeNeighbourIterator.hpp:23-44), `neighbour_begin(x)` (DKtree.hpp:302-305). -/
def nbBegin (g : DK K) (x : Nat) : Res NbIt := do
  let c ← g.c0.nbBegin x
  match c.ptr with
  | some y => .ok ⟨toInt y, c, true, none, []⟩
  | none => .ok (nbPlace c (seek K x (g.ks.take (g.maxR + 1)) 0))

/-- The part of `operator++()` for the trees (DKtreeNeighbourIterator.hpp:78-115). -/
def nbNextTree (g : DK K) (x : Nat) (it : NbIt) : NbIt :=
  match it.cur with
  | none => nbPlace it.c0it (seek K x (g.ks.take (g.maxR + 1)) 0)
  | some j =>
    match it.kit with
    | _ :: y :: l => { it with ptr := toInt y, kit := y :: l }
    | _ => nbPlace it.c0it (seek K x ((g.ks.take (g.maxR + 1)).drop (j + 1)) (j + 1))

/-- `operator++()` (DKtreeNeighbourIterator.hpp:67-118). -/
def nbNext (g : DK K) (x : Nat) (it : NbIt) : Res NbIt :=
  if it.inC0 then do
    let c ← g.c0.nbPost it.c0it
    match c.ptr with
    | some y => .ok { it with ptr := toInt y, c0it := c }
    | none => .ok (nbNextTree g x { it with c0it := c, inC0 := false })
  else .ok (nbNextTree g x it)

/-- `*it`, or `none` when `it == neighbour_end()` (`_ptr == -1`, DKtreeNeighbourIterator.hpp:50-53,
DKtree.hpp:308-310). -/
def nbCur (it : NbIt) : Option Int := if it.ptr = -1 then none else some it.ptr

/-- The loop over `neighbour_begin(x)` … `neighbour_end()`. -/
def nbAll (g : DK K) (x : Nat) (fuel : Nat) : Res (List Int) := do
  let it ← g.nbBegin x
  drive nbCur (g.nbNext x) fuel it

/-- `DKtreeNodeIterator` (DKtreeNodeIterator.hpp:78-81): `_ptr` and `tree_size`, both `int`. -/
structure NodeIt where
  ptr : Int
  size : Int

/-- The constructor (DKtreeNodeIterator.hpp:25-32): `get_number_nodes()` is converted to `int`. -/
def nodeBegin (g : DK K) : NodeIt :=
  if toInt g.numberNodes > 0 then ⟨0, toInt g.numberNodes⟩ else ⟨-1, toInt g.numberNodes⟩

/-- `operator++()` (DKtreeNodeIterator.hpp:57-63). -/
def nodeNext (it : NodeIt) : NodeIt :=
  if it.ptr ≥ it.size - 1 ∨ it.ptr = -1 then { it with ptr := -1 } else { it with ptr := it.ptr + 1 }

/-- `*it`, or `none` when `it == node_end()` (DKtreeNodeIterator.hpp:39-51). -/
def nodeCur (it : NodeIt) : Option Int := if it.ptr = -1 then none else some it.ptr

/-- The loop over `node_begin()` … `node_end()`. -/
def nodeAll (g : DK K) (fuel : Nat) : Res (List Int) :=
  drive nodeCur (fun it => .ok (nodeNext it)) fuel g.nodeBegin

/-- `MAX_SIZE_EDGE` (DKtreeEdgeIterator.hpp:220): the end sentinel is the edge `(9999999,9999999)`. -/
def maxEdge : Edge := (9999999, 9999999)

/-- `DKtreeEdgeIterator` (DKtreeEdgeIterator.hpp:216-227): the copies of the buffer and of the level
array taken by the constructor, `_ptr`, `distance_C0`, `_i`, and for each level the rest of its edge
sequence (current edge first; by contract `edge_begin()..edge_end()` is `K.edges`). -/
structure EIt where
  c0 : C0
  cur : List (Option (List Edge))
  ptr : Edge
  dist : Int
  i : Nat

/-- First occupied level at or after `i` (DKtreeEdgeIterator.hpp:73-79, 124-131, 137-142). -/
def firstFrom (cur : List (Option (List Edge))) (i : Nat) : Option (Nat × List Edge) :=
  (((List.range cur.length).drop i).findSome? fun j => (cur[j]?.join).map fun l => (j, l))

/-- `*it` of a tree iterator; dereferencing its end is undefined. -/
def deref : List Edge → Res Edge
  | [] => .ub
  | e :: _ => .ok e

/-- `edge_begin()` (DKtree.hpp:275-279): the constructor (DKtreeEdgeIterator.hpp:52-86) followed by the
assignment to the member, whose `operator=` (175-187) leaves the member's `_i` (`i0`) unchanged. -/
def eBegin (g : DK K) (i0 : Nat) : Res EIt :=
  let cur := g.ks.map (Option.map K.edges)
  if g.nv = 0 then .ok ⟨g.c0, cur, maxEdge, -1, i0⟩
  else if g.c0.size > 0 then do
    let o ← rd g.c0.elementsNodes 0
    let e ← use o
    .ok ⟨g.c0, cur, e, 0, i0⟩
  else
    match firstFrom cur 0 with
    | some (_, l) => do
      let e ← deref l
      .ok ⟨g.c0, cur, e, 0, i0⟩
    | none => .ok ⟨g.c0, cur, maxEdge, -1, i0⟩

/-- `operator++()` (DKtreeEdgeIterator.hpp:116-153). -/
def eNext (it : EIt) : Res EIt :=
  if it.dist < (it.c0.size : Int) then
    if it.dist + 1 < (it.c0.size : Int) then do
      let o ← rd it.c0.elementsNodes (it.dist + 1).toNat
      let e ← use o
      .ok { it with dist := it.dist + 1, ptr := e }
    else
      match firstFrom it.cur 0 with
      | some (j, l) => do
        let e ← deref l
        .ok { it with dist := it.dist + 1, ptr := e, i := j }
      | none => .ok { it with dist := it.dist + 1, ptr := maxEdge }
  else
    match firstFrom it.cur it.i with
    | none => .ok { it with ptr := maxEdge, i := RS }
    | some (j, l) =>
      match l with
      | [] => .ub
      | _ :: [] =>
        (match firstFrom it.cur (j + 1) with
        | some (j', l') => do
          let e ← deref l'
          .ok { it with cur := it.cur.set j (some []), ptr := e, i := j' }
        | none => .ok { it with cur := it.cur.set j (some []), ptr := maxEdge, i := RS })
      | _ :: e :: l' => .ok { it with cur := it.cur.set j (some (e :: l')), ptr := e, i := j }

/-- `*it`, or `none` when `it == edge_end()` (DKtreeEdgeIterator.hpp:88-90, 161-169). -/
def eCur (it : EIt) : Option Edge := if it.ptr = maxEdge then none else some it.ptr

/-- The loop over `edge_begin()` … `edge_end()`, the member iterator having `_i = i0`. -/
def eAll (g : DK K) (i0 : Nat) (fuel : Nat) : Res (List Edge) := do
  let it ← g.eBegin i0
  drive eCur eNext fuel it

end DK
end DK2
