import Verif.Spec
/-!
# Specification for histories that add and delete

A history is replayed on a list of present edges; besides them only the order of the insertions and the number of
deletions are recorded.  Nothing here refers to the model of the code.
-/

namespace DK2

/-- What a user who keeps a log knows: the present edges, the insertions that had an effect (latest first), and how
many deletions had an effect. -/
structure Win where
  present : List Edge
  log : List Edge
  dels : Nat

/-- One call. -/
def Win.step (w : Win) : Op → Win
  | .add e => if e ∈ w.present then w else ⟨e :: w.present, e :: w.log, w.dels⟩
  | .del e => if e ∈ w.present then ⟨w.present.erase e, w.log, w.dels + 1⟩ else w

/-- A history, from the empty graph. -/
def Win.run (ops : List Op) : Win := ops.foldl Win.step ⟨[], [], 0⟩

/-- Deletions are rare: at most one edge was deleted for every six still present. -/
def Win.Rare (w : Win) : Prop := 6 * w.dels ≤ w.present.length

/-- The edge is not among the last `B` insertions (or is not present at all). -/
def Win.Old (B : Nat) (w : Win) (e : Edge) : Prop := e ∈ w.present → e ∉ w.log.take B

/-- A history on vertices `0..n-1` that never holds more than `M` edges, whose deletions are rare, and that deletes no
edge among the last `B` inserted ones. -/
def Settled (n B M : Nat) (ops : List Op) : Prop :=
  ∀ pre o post, ops = pre ++ o :: post → InRange n o.edge ∧
    (Win.run (pre ++ [o])).present.length ≤ M ∧
    ∀ e, o = .del e → (Win.run (pre ++ [o])).Rare ∧ (Win.run pre).Old B e

theorem Win.run_snoc (ops : List Op) (o : Op) : Win.run (ops ++ [o]) = (Win.run ops).step o := by
  simp [Win.run]

/-- The present edges are those of the set semantics, each once. -/
theorem Win.present_spec (ops : List Op) :
    (Win.run ops).present.Nodup ∧ ∀ e, e ∈ (Win.run ops).present ↔ specMem ops e := by
  suffices h : (Win.run ops).present.Nodup ∧ ∀ e, e ∈ (Win.run ops).present ↔ specRun (fun _ => False) ops e from
    ⟨h.1, fun e => by rw [specMem_iff_specRun]; exact h.2 e⟩
  induction ops using List.reverseRecOn with
  | nil => simp [Win.run, specRun]
  | append_singleton ops o ih =>
    obtain ⟨h1, h2⟩ := ih
    rw [Win.run_snoc, specRun_concat]
    cases o with
    | add e =>
      simp only [Win.step, specStep]
      split
      · rename_i hm
        refine ⟨h1, fun e' => ?_⟩
        rw [h2]
        exact ⟨Or.inr, fun h => h.elim (fun h => h ▸ (h2 e).1 hm) id⟩
      · rename_i hm
        refine ⟨List.nodup_cons.2 ⟨hm, h1⟩, fun e' => ?_⟩
        simp only [List.mem_cons]
        rw [h2]
    | del e =>
      simp only [Win.step, specStep]
      split
      · refine ⟨h1.erase e, fun e' => ?_⟩
        rw [h1.mem_erase_iff, h2]
      · rename_i hm
        refine ⟨h1, fun e' => ?_⟩
        rw [h2]
        exact ⟨fun h => ⟨fun h' => hm ((h2 e).2 (h' ▸ h)), h⟩, And.right⟩

theorem Settled.of_append {n B M : Nat} {a b : List Op} (h : Settled n B M (a ++ b)) : Settled n B M a := by
  intro pre o post hh
  exact h pre o (post ++ b) (by simp [hh])

end DK2
