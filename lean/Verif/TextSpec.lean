import Verif.ProgSpec
/-!
# Specification of the files the tools in `evaluation/` read (C105–C107)

Nothing here refers to the model of the code.  A file is a list of characters.
-/

namespace DK2

/-- One record of a dataset: a mark and an edge. -/
structure Record where
  mark : List Char
  e : Edge
  deriving DecidableEq

/-- The record as a line: mark and vertices, in decimal, separated by single blanks. -/
def Record.line (r : Record) : List Char := r.mark ++ ' ' :: (Nat.toDigits 10 r.e.1 ++ ' ' :: Nat.toDigits 10 r.e.2)

/-- A line that asks for a vertex: mark and vertex, separated by a tab. -/
def vertexLine (r : List Char × Nat) : List Char := r.1 ++ '\t' :: Nat.toDigits 10 r.2

/-- The file with the given lines. -/
def textOf (ls : List (List Char)) : List Char := ls.flatMap (· ++ ['\n'])

/-- A mark: it has no white space in it. -/
def Plain (m : List Char) : Prop := ' ' ∉ m ∧ '\t' ∉ m ∧ '\n' ∉ m

instance (m : List Char) : Decidable (Plain m) := by unfold Plain; infer_instance

/-- The edges a dataset describes: those marked `a`. -/
def edgesMarked (rs : List Record) : List Edge := (rs.filter (·.mark = ['a'])).map Record.e

/-- The records are well formed and name vertices of a graph with `n` vertices. -/
def WellFormed (n : Nat) (rs : List Record) : Prop := ∀ r ∈ rs, Plain r.mark ∧ InRange n r.e

instance (n : Nat) (rs : List Record) : Decidable (WellFormed n rs) := by unfold WellFormed; infer_instance

end DK2
