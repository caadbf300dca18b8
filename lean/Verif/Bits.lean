import Verif.Res
import Verif.Spec
import Mathlib.Data.List.Dedup
import Mathlib.Data.List.Nodup
import Mathlib.Data.Nat.Digits.Defs
/-!
# Bit-encoded k²-trees: specification

What `k2_tree` stores for an edge set, as `union_support.hpp` uses it: a tree of height `h` in which every inner
node has `b = k²` children; node `p` (the list of child numbers on the way from the root) has an edge below it or
not.  Every node with an edge below it (and the root) contributes one group of `b` bits, one per child; groups are
stored level by level, in order; the last level is `L`, the others are `T`.
-/

namespace DK2
namespace Bits

/-- The nodes of level `d` that own a group of bits, in storage order. -/
def nodes (b : Nat) (A : List Nat → Bool) : Nat → List (List Nat)
  | 0 => [[]]
  | d + 1 => (nodes b A d).flatMap (fun p => ((List.range b).map (fun c => p ++ [c])).filter A)

/-- The groups of a list of nodes. -/
def groups (b : Nat) (A : List Nat → Bool) (ps : List (List Nat)) : List Bool :=
  ps.flatMap (fun p => (List.range b).map (fun c => A (p ++ [c])))

/-- The bits of level `d`. -/
def bits (b : Nat) (A : List Nat → Bool) (d : Nat) : List Bool := groups b A (nodes b A d)

/-- `T`: all levels but the last. -/
def tBits (b : Nat) (A : List Nat → Bool) (h : Nat) : List Bool := (List.range (h - 1)).flatMap (bits b A)

/-- `L`: the last level. -/
def lBits (b : Nat) (A : List Nat → Bool) (h : Nat) : List Bool := bits b A (h - 1)

/-- The way from the root to the cell of an edge: at each level, `k` times the row digit plus the column digit. -/
def path (k : Nat) : Nat → Edge → List Nat
  | 0, _ => []
  | h + 1, e => ((e.1 / k ^ h) % k * k + (e.2 / k ^ h) % k) :: path k h e

/-- Whether an edge of `E` lies below node `p`. -/
def below (k h : Nat) (E : List Edge) (p : List Nat) : Bool := E.any (fun e => p.isPrefixOf (path k h e))

end Bits

/-- The part of a `k2_tree` that `union_support.hpp` reads and writes: `k_t`, `k_l`, `k_height`,
`get_number_nodes()`, `total_edges()`. -/
structure BT where
  T : List Bool
  L : List Bool
  h : Nat
  nv : Nat
  ne : Nat
  deriving DecidableEq, Repr

/-- The tree of an edge list (`k2_tree(edges, n)`). -/
def BT.encode (k h n : Nat) (E : List Edge) : BT where
  T := Bits.tBits (k * k) (Bits.below k h E) h
  L := Bits.lBits (k * k) (Bits.below k h E) h
  h := h
  nv := n
  ne := E.dedup.length

end DK2
