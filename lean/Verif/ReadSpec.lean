import Verif.ProgSpec
/-!
# Specification of threads that only read a graph (C102)

Nothing here refers to the model of the code.  A reading thread is a program that asks questions, each of which may depend on
the answers so far, and returns a value.
-/

namespace DK2

/-- A reading thread. -/
inductive RQ (α : Type) where
  | done (a : α)
  | ask (q : Query) (k : Ans → RQ α)

namespace RQ
variable {α : Type}

/-- Every question names vertices of the graph, as long as the answers so far were right. -/
def Legal (g : SGraph) : RQ α → Prop
  | done _ => True
  | ask q k => q.Legal g.n ∧ ∀ r, q.Right g r → (k r).Legal g

/-- The value `b` is what the thread returns for some right answers to its questions. -/
def Right (g : SGraph) (b : α) : RQ α → Prop
  | done a => b = a
  | ask q k => ∃ r, q.Right g r ∧ (k r).Right g b

/-- The thread may, for some answers, come to ask `q`. -/
def Asks (q : Query) : RQ α → Prop
  | done _ => False
  | ask q' k => q = q' ∨ ∃ r, (k r).Asks q

end RQ

/-- An iterator loop: over the neighbours of a vertex, over the edges, over the vertices. -/
def Query.loop : Query → Bool
  | .neighbourLoop _ | .edgeLoop | .nodeLoop => true
  | _ => false

/-- A traversal by `Algorithm`, which first copies the graph. -/
def Query.algorithm : Query → Bool
  | .bfs _ | .dfs _ | .triangles => true
  | _ => false

/-- The kinds of iterators of the trees and of the object that a question uses: 0 over the neighbours of a vertex, 1 over
edges, 2 over vertices.  A traversal uses the object's iterators of its copy, but the trees' iterators of the common trees. -/
def Query.iters : Query → List Nat
  | .neighbourLoop _ | .bfs _ | .dfs _ => [0]
  | .edgeLoop | .triangles => [1]
  | .nodeLoop => [2]
  | _ => []

/-- Two questions that two threads must not ask about the same object at the same time: two that use the same kind of
iterators, and a loop and a traversal. -/
def Query.Clash (q q' : Query) : Prop :=
  (∃ k ∈ q.iters, k ∈ q'.iters) ∨ (q.loop = true ∧ q'.algorithm = true) ∨ (q.algorithm = true ∧ q'.loop = true)

instance (q q' : Query) : Decidable (q.Clash q') := by unfold Query.Clash; infer_instance

/-- No two of the threads can come to ask questions that clash. -/
def Apart {α : Type} (ts : List (RQ α)) : Prop :=
  ∀ (i j : Nat) (t t' : RQ α), i ≠ j → ts[i]? = some t → ts[j]? = some t' → ∀ q q', t.Asks q → t'.Asks q' → ¬ q.Clash q'

end DK2
