import Verif.CopySpec
import Verif.ConcMany
import Verif.Readers
import Verif.PropsAlias
/-!
# Threads that each work on their own copy of a `DKtree`

The copies are made before the threads start (implicit copy constructor): they have their own buffer, counters, array of pointers
and member iterators, and share the trees.
-/

namespace DK2
open HG
variable {K : K2Impl}

/-- The trees of all copies, and the copy of each thread (DKtree.hpp:50-61). -/
structure CWorld (K : K2Impl) where
  heap : Heap K
  obj : Nat → HG

/-- What a call can touch: the members of copy `i` (DKtree.hpp:50-61), the trees that exist (`k_collection` points to them), and the
member iterators of the trees (as in `RLoc`).  Memory a call allocates itself is not listed. -/
inductive CLoc where
  | own (i : Nat)
  | trees | treeNb | treeE
  deriving DecidableEq, Repr

namespace CWorld

/-- Every thread gets a copy of one graph (the implicit copy constructor, as `World.copy`; DKtree.hpp:50-61). -/
def copies (r : Heap K × HG) : CWorld K := ⟨r.1, fun _ => r.2⟩

/-- The members a question writes: a loop assigns the member iterator of its copy (DKtree.hpp:275-279, 286-290, 302-305), and loops and
traversals use the iterators of the trees (DKtree.hpp:325-327). -/
def qwr (i : Nat) (q : Query) : List CLoc :=
  (if q.loop then [.own i] else []) ++ (if 0 ∈ q.iters then [.treeNb] else []) ++ (if 1 ∈ q.iters then [.treeE] else [])

/-- `add_edge` on copy `i` (DKtree.hpp:101-144). -/
def add (S : Sizing) (i : Nat) (e : Edge) (w : CWorld K) : Res (CWorld K × Unit) := do
  let r ← HG.addEdge S w.heap (w.obj i) e
  .ok (⟨r.1, Function.update w.obj i r.2⟩, ())

/-- `del_edge` on copy `i` (DKtree.hpp:183-246). -/
def del (S : Sizing) (i : Nat) (e : Edge) (w : CWorld K) : Res (CWorld K × Unit) := do
  let r ← HG.delEdge S w.heap (w.obj i) e
  .ok (⟨r.1, Function.update w.obj i r.2⟩, ())

/-- Thread `i`, call by call (DKtree.hpp:82-310).  Simplified: a call is one stretch.  Copy `i` is touched by no other thread, so a call
can meet others only at the trees; `add_edge` reads them (`adj_forced`, `unionOp` of its argument) and builds new ones, `del_edge`
may erase in them (listed even where it only touches the buffer; nothing is claimed from that). -/
def cprog {α : Type} (S : Sizing) (i : Nat) : CQ α → Prog (CWorld K) CLoc α
  | .done a => .ret a
  | .ask q k => .act ⟨[.own i, .trees], qwr i q⟩ (fun w => (view w.heap (w.obj i)).ask q >>= fun r => .ok (w, r)) fun r => cprog S i (k r)
  | .add e k => .act ⟨[.trees], [.own i]⟩ (add S i e) fun _ => cprog S i k
  | .del e k => .act ⟨[], [.own i, .trees]⟩ (del S i e) fun _ => cprog S i k

/-- The threads `0..m-1`. -/
def threads {α : Type} (S : Sizing) (m : Nat) (ts : Nat → CQ α) : List (Prog (CWorld K) CLoc α) :=
  (List.range m).map fun i => cprog S i (ts i)

end CWorld
end DK2
