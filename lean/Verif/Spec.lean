import Verif.Res
import Mathlib.Data.List.Induction
/-!
# Specification of a dynamic directed graph

Nothing here refers to the model of the code: this is what a user of the library believes.
-/

namespace DK2

/-- A directed edge `(x,y)`. -/
abbrev Edge := Nat × Nat

/-- `(x,y)` is a legal edge of a graph with vertices `0..n-1` (DKtree.hpp:66-67 "[0, V["). -/
def InRange (n : Nat) (e : Edge) : Prop := e.1 < n ∧ e.2 < n

instance (n : Nat) (e : Edge) : Decidable (InRange n e) := by unfold InRange; infer_instance

/-- A user call that modifies the graph. -/
inductive Op where
  | add (e : Edge)
  | del (e : Edge)
  deriving DecidableEq, Repr

/-- The edge named by a call. -/
def Op.edge : Op → Edge
  | .add e => e
  | .del e => e

/-- All calls of a history name legal edges. -/
def OpsInRange (n : Nat) (ops : List Op) : Prop := ∀ o ∈ ops, InRange n o.edge

/-- Is edge `e` present after the history `ops` (calls in order of execution), starting from the
empty graph?  It is iff the last call naming `e` is an `add`. -/
def specMem (ops : List Op) (e : Edge) : Prop :=
  ∃ pre post, ops = pre ++ Op.add e :: post ∧ ∀ o ∈ post, o.edge ≠ e

/-- One step on a predicate (set of edges): the textbook semantics of add/del. -/
def specStep (G : Edge → Prop) : Op → Edge → Prop
  | .add e => fun e' => e' = e ∨ G e'
  | .del e => fun e' => e' ≠ e ∧ G e'

/-- The set of edges after a history. -/
def specRun (G : Edge → Prop) (ops : List Op) : Edge → Prop := ops.foldl specStep G

theorem specRun_nil (G : Edge → Prop) : specRun G [] = G := rfl
theorem specRun_cons (G : Edge → Prop) (o : Op) (ops : List Op) :
    specRun G (o :: ops) = specRun (specStep G o) ops := rfl
theorem specRun_append (G : Edge → Prop) (a b : List Op) :
    specRun G (a ++ b) = specRun (specRun G a) b := by simp [specRun]

theorem specRun_concat (G : Edge → Prop) (a : List Op) (o : Op) :
    specRun G (a ++ [o]) = specStep (specRun G a) o := by simp [specRun]

/-- "the last call naming `e` was an add" and the set semantics are the same thing. -/
theorem specMem_iff_specRun (ops : List Op) (e : Edge) :
    specMem ops e ↔ specRun (fun _ => False) ops e := by
  induction ops using List.reverseRecOn with
  | nil => simp [specMem, specRun]
  | append_singleton ops o ih =>
    rw [specRun_concat]
    constructor
    · rintro ⟨pre, post, h, hp⟩
      rcases List.eq_nil_or_concat post with rfl | ⟨post', o', rfl⟩
      · have := List.append_inj' h rfl
        simp at this
        obtain ⟨_, rfl⟩ := this
        simp [specStep]
      · have h' : ops ++ [o] = (pre ++ Op.add e :: post') ++ [o'] := by simpa using h
        have := List.append_inj' h' rfl
        simp at this
        obtain ⟨h1, rfl⟩ := this
        have hm : specMem ops e := ⟨pre, post', h1, fun o ho => hp o (by simp [ho])⟩
        have hne : o.edge ≠ e := hp o (by simp)
        have := ih.1 hm
        cases o with
        | add e' => exact Or.inr this
        | del e' => exact ⟨fun h => hne h.symm, this⟩
    · intro h
      by_cases hoe : o.edge = e
      · cases o with
        | add e' =>
          have : e' = e := hoe
          subst this
          exact ⟨ops, [], rfl, by simp⟩
        | del e' =>
          have : e' = e := hoe
          exact absurd this.symm h.1
      · have : specRun (fun _ => False) ops e := by
          cases o with
          | add e' => exact h.resolve_left (fun h => hoe h.symm)
          | del e' => exact h.2
        obtain ⟨pre, post, h1, hp⟩ := ih.2 this
        refine ⟨pre, post ++ [o], by simp [h1], ?_⟩
        intro o' ho'
        rcases List.mem_append.1 ho' with h2 | h2
        · exact hp o' h2
        · simp at h2; subst h2; exact hoe

end DK2
