import Verif.ReadSpec
/-!
# Specification of threads that each work on a copy of a graph of their own (C104)

Nothing here refers to the model of the code.
-/

namespace DK2

/-- A thread that works on one graph: it asks questions and inserts and deletes edges, depending on the answers so far. -/
inductive CQ (α : Type) where
  | done (a : α)
  | ask (q : Query) (k : Ans → CQ α)
  | add (e : Edge) (k : CQ α)
  | del (e : Edge) (k : CQ α)

namespace CQ
variable {α : Type}

/-- Every call names vertices of the graph, as long as the answers so far were right. -/
def Legal : SGraph → CQ α → Prop
  | _, done _ => True
  | A, ask q k => q.Legal A.n ∧ ∀ r, q.Right A r → (k r).Legal A
  | A, add e k => InRange A.n e ∧ k.Legal ⟨A.n, insert e A.E⟩
  | A, del e k => InRange A.n e ∧ k.Legal ⟨A.n, A.E.erase e⟩

/-- The value `b` is what the thread returns for some right answers to its questions, the graph changing only by its own calls. -/
def Right (b : α) : SGraph → CQ α → Prop
  | _, done a => b = a
  | A, ask q k => ∃ r, q.Right A r ∧ (k r).Right b A
  | A, add e k => k.Right b ⟨A.n, insert e A.E⟩
  | A, del e k => k.Right b ⟨A.n, A.E.erase e⟩

/-- The thread deletes nothing. -/
def InsertOnly : CQ α → Prop
  | done _ => True
  | ask _ k => ∀ r, (k r).InsertOnly
  | add _ k => k.InsertOnly
  | del _ _ => False

/-- The thread may, for some answers, come to ask `q`. -/
def Asks (q : Query) : CQ α → Prop
  | done _ => False
  | ask q' k => q = q' ∨ ∃ r, (k r).Asks q
  | add _ k | del _ k => k.Asks q

end CQ

/-- Both questions run over neighbours, or both over edges. -/
def Query.SameTrees (q q' : Query) : Prop := ∃ k ∈ [0, 1], k ∈ q.iters ∧ k ∈ q'.iters

instance (q q' : Query) : Decidable (q.SameTrees q') := by unfold Query.SameTrees; infer_instance

end DK2
