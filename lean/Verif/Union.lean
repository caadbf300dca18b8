import Verif.Bits
import Verif.Sizing
/-!
# Model of `k2_tree_union_support` (`include/dktree/union_support.hpp`)

`b` is `k*k`.  `H n` is the height computed for `n` vertices by `max(1, ceil(log n / log k))`
(union_support.hpp:51-52); its value is not modelled.  `uint` counters other than the size estimate of 137-149 are
natural numbers: the bit vectors are assumed to have fewer than 2^32 bits.  Queue levels are `uint8_t`; heights are
at most 64.
-/

namespace DK2

/-- The members of `k2_tree_union_support` (union_support.hpp:15-27, 58).  `C_t_size`, `C_l_size` are the lengths
of `C_t`, `C_l`; the pointer `k_collection` is passed separately.  Queue elements `{l, rA, rB}` have 0/1
flags. -/
structure US where
  Q : List (Nat × Bool × Bool)
  Ct : List Bool
  Cl : List Bool
  ne : Nat
  pA : Nat
  pB : Nat
  idxL : Nat
  idxT : Nat
  tmp : BT
  ki : Nat
  iter : Nat
  times : Nat
  finish : Bool
  maxI : Nat

namespace US

/-- `initialize()` (union_support.hpp:33-40). -/
def initl (s : US) : US := { s with Q := [(0, true, true)], pA := 0, pB := 0, idxL := 0, idxT := 0 }

/-- `get_ones` (union_support.hpp:29-31). -/
def getOnes (t : BT) : Nat := t.T.length + t.L.length

/-- `total_iterations` (union_support.hpp:74-82). -/
def totalIter (ks : List (Option BT)) (maxI : Nat) (tmp : BT) : Nat :=
  let s := ((ks.take (maxI + 1)).map (fun o => match o with | some t => getOnes t | none => 0)).sum + getOnes tmp
  if s = 0 then 1 else s

/-- `iteration_size` (union_support.hpp:84-86): integer division, plus one if it is not exact. -/
def iterSize (total c0 : Nat) : Nat := total / c0 + if total % c0 = 0 then 0 else 1

/-- The first level `≥ i` and `≤ max_i` that holds a tree, otherwise `max_i + 1` (union_support.hpp:89-94, 202-206);
the first argument is the number of levels left. -/
def scan (ks : List (Option BT)) : Nat → Nat → Nat
  | 0, i => i
  | f + 1, i =>
    match ks[i]? with
    | some (some _) => i
    | _ => scan ks f (i + 1)

/-- The constructor (union_support.hpp:64-118), with the levels it may write to.  Dividing by an empty edge list
is undefined. -/
def create (build : List Edge → Nat → BT) (edges : List Edge) (n : Nat) (ks : List (Option BT)) (i : Nat) :
    Res (List (Option BT) × US) :=
  if edges.length = 0 then .ub
  else
    let tmp := build edges n
    let it := iterSize (totalIter ks i tmp) edges.length
    let j := scan ks (i + 1) 0
    if j ≤ i then .ok (ks, initl ⟨[], [], [], 0, 0, 0, 0, 0, tmp, j, it, 0, false, i⟩)
    else do
      let ks ← wr ks i (some tmp)
      .ok (ks, ⟨[], [], [], 0, 0, 0, 0, 0, tmp, RS, it, 0, true, i⟩)

/-- `calc` and `max_bits` after `j` rounds (union_support.hpp:137-142), 32-bit arithmetic. -/
def bitsLoop (b : Nat) : Nat → Nat × Nat
  | 0 => (1, 0)
  | j + 1 =>
    let r := bitsLoop b j
    ((r.1 * b) % 2 ^ 32, (r.2 + (r.1 * b) % 2 ^ 32) % 2 ^ 32)

/-- `C_t_size` (union_support.hpp:144). -/
def capT (b maxH : Nat) (A B : BT) : Nat := min (bitsLoop b maxH).2 (A.T.length + B.T.length)

/-- `C_l_size` (union_support.hpp:147-149). -/
def capL (b maxH : Nat) (A B : BT) : Nat := min (bitsLoop b (maxH + 1)).2 (A.L.length + B.L.length)

/-- The initialisation of `C` (union_support.hpp:137-150). -/
def initC (b maxH : Nat) (B : BT) (s : US) : US :=
  { s with Ct := List.replicate (capT b maxH s.tmp B) false, Cl := List.replicate (capL b maxH s.tmp B) false }

/-- Reading one bit of a tree at the running position `p` (union_support.hpp:167-170): `p - t_size` is
unsigned. -/
def readBit (maxH : Nat) (t : BT) (l p : Nat) : Res Bool :=
  if l + 1 < maxH then rd t.T p
  else if p < t.T.length then .ub
  else rd t.L (p - t.T.length)

/-- `bA` (or `bB`) and the new position (union_support.hpp:164-179). -/
def nextBit (maxH : Nat) (t : BT) (l : Nat) (r : Bool) (p : Nat) : Res (Bool × Nat) :=
  if r then do
    let a ← readBit maxH t l p
    .ok (a, p + 1)
  else .ok (false, p)

/-- Writing one result bit (union_support.hpp:181-194). -/
def emit (maxH l : Nat) (bA bB : Bool) (s : US) : Res US :=
  if l + 1 < maxH then
    if bA || bB then do
      let c ← wr s.Ct s.idxT true
      .ok { s with Q := s.Q ++ [(l + 1, bA, bB)], Ct := c, idxT := s.idxT + 1 }
    else .ok { s with idxT := s.idxT + 1 }
  else
    if bA || bB then do
      let c ← wr s.Cl s.idxL true
      .ok { s with Cl := c, ne := s.ne + 1, idxL := s.idxL + 1 }
    else .ok { s with idxL := s.idxL + 1 }

/-- The loop over the children of one queue element (union_support.hpp:160-195); the first argument is the number
of children left. -/
def children (maxH : Nat) (B : BT) (q : Nat × Bool × Bool) : Nat → US → Res US
  | 0, s => .ok s
  | c + 1, s => do
    let a ← nextBit maxH s.tmp q.1 q.2.1 s.pA
    let b ← nextBit maxH B q.1 q.2.2 s.pB
    let s' ← emit maxH q.1 a.1 b.1 { s with pA := a.2, pB := b.2 }
    children maxH B q c s'

/-- The loop over the queue (union_support.hpp:153-196); the first argument is `iteration_size - times`. -/
def drain (b maxH : Nat) (B : BT) : Nat → US → Res US
  | 0, s => .ok s
  | f + 1, s =>
    match s.Q with
    | [] => .ok s
    | q :: qs => do
      let s' ← children maxH B q b { s with Q := qs, times := s.times + 1 }
      drain b maxH B f s'

/-- `result()` (union_support.hpp:42-55). -/
def result (H : Nat → Nat) (s : US) : Res US :=
  if s.Ct.length < s.idxT then .abort
  else if s.Cl.length < s.idxL then .abort
  else .ok { s with
    tmp := { s.tmp with T := s.Ct.take s.idxT, L := s.Cl.take s.idxL, h := H s.tmp.nv, ne := s.ne }
    Ct := s.Ct.take s.idxT
    Cl := s.Cl.take s.idxL
    ne := 0 }

/-- `Q.front()` (union_support.hpp:131): undefined on an empty queue. -/
def front (s : US) : Res (Nat × Bool × Bool) :=
  match s.Q with
  | [] => .ub
  | q :: _ => .ok q

/-- `C` is allocated when the root is about to be processed (union_support.hpp:131-151). -/
def begin' (b maxH : Nat) (B : BT) (q : Nat × Bool × Bool) (s : US) : US :=
  if q = (0, true, true) then initC b maxH B s else s

/-- What happens when the queue is empty (union_support.hpp:198-220): the next state, and whether
`unionOperation` calls itself. -/
def next (H : Nat → Nat) (ks : List (Option BT)) (s : US) : Res (List (Option BT) × US × Bool) := do
  let ks ← wr ks s.ki none
  let s ← result H s
  let j := scan ks (s.maxI + 1 - s.ki) s.ki
  if s.maxI < j then do
    let ks ← wr ks s.maxI (some s.tmp)
    .ok (ks, { s with ki := j, finish := true }, false)
  else if s.times = s.iter then .ok (ks, { initl { s with ki := j } with times := 0 }, false)
  else .ok (ks, initl { s with ki := j }, true)

/-- `unionOperation()` (union_support.hpp:120-227).  The first argument bounds the depth of its recursion. -/
def unionOp (b : Nat) (H : Nat → Nat) : Nat → List (Option BT) → US → Res (List (Option BT) × US)
  | 0, _, _ => .diverge
  | f + 1, ks, s =>
    if s.finish then .ok (ks, s)
    else do
      let o ← rd ks s.ki
      let B ← use o
      let maxH := max s.tmp.h B.h
      let q ← s.front
      let s ← drain b maxH B (s.iter - s.times) (begin' b maxH B q s)
      if s.Q = [] then do
        let r ← next H ks s
        if r.2.2 then unionOp b H f r.1 r.2.1 else .ok (r.1, r.2.1)
      else .ok (ks, { s with times := 0, finish := false })

end US
end DK2
