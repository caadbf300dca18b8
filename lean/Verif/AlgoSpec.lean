import Verif.Spec
import Mathlib.Data.Finset.Prod
import Mathlib.Data.Finset.Range
import Mathlib.Data.Finset.Card
import Mathlib.Logic.Relation
/-!
# Specification of the graph algorithms

Nothing here refers to the model of the code.  `E` is the edge set of a graph with vertices `0..n-1`.
-/

namespace DK2

/-- `v` can be reached from `u`. -/
def Reach (E : Edge → Prop) : Nat → Nat → Prop := Relation.ReflTransGen (fun x y => E (x, y))

/-- There is a walk of `k` edges from `u` to `v`. -/
inductive Walk (E : Nat → Nat → Prop) : Nat → Nat → Nat → Prop
  | nil (u : Nat) : Walk E 0 u u
  | snoc {k u v w : Nat} : Walk E k u v → E v w → Walk E (k + 1) u w

/-- `u` is not farther from `root` than `v`. -/
def NotFarther (E : Edge → Prop) (root u v : Nat) : Prop :=
  ∀ k, Walk (fun x y => E (x, y)) k root v → ∃ j, j ≤ k ∧ Walk (fun x y => E (x, y)) j root u

open Classical in
/-- Number of ordered triples of vertices with a property. -/
noncomputable def countTriples (n : Nat) (P : Nat → Nat → Nat → Prop) : Nat :=
  ((Finset.range n ×ˢ (Finset.range n ×ˢ Finset.range n)).filter (fun t => P t.1 t.2.1 t.2.2)).card

/-- `a → b → c → a` with pairwise distinct vertices: a directed triangle with a chosen first vertex. -/
def DirTriangle (E : Edge → Prop) (a b c : Nat) : Prop :=
  a ≠ b ∧ b ≠ c ∧ a ≠ c ∧ E (a, b) ∧ E (b, c) ∧ E (c, a)

/-- Out-degree in the specification. -/
noncomputable def outDeg (n : Nat) (E : Edge → Prop) (v : Nat) : Nat :=
  by classical exact ((Finset.range n).filter (fun y => E (v, y))).card

/-- What `count_triangles` counts. -/
def HeavyTriple (n m : Nat) (E : Edge → Prop) (a b u : Nat) : Prop :=
  E (a, b) ∧ E (a, u) ∧ E (u, b) ∧ outDeg n E a * outDeg n E a < m ∧ m ≤ outDeg n E b * outDeg n E b ∧
  (outDeg n E a < outDeg n E u ∨ (outDeg n E a = outDeg n E u ∧ a < u))

end DK2
