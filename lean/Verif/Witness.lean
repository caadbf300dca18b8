import Verif.Congr
/-!
# Concrete histories, evaluated by the kernel

Each history is run under the real threshold formulas (`realSizing`) on the reference tree `refK2`,
which meets the contract (`refK2_lawful`).
-/

namespace DK2
namespace DK

/-- The run returns and the final graph passes the test. -/
def check {α : Type} (r : Res α) (f : α → Bool) : Bool :=
  match r with
  | .ok g => f g
  | _ => false

theorem check_iff {α : Type} {r : Res α} {f : α → Bool} :
    check r f = true ↔ ∃ g, r = .ok g ∧ f g = true := by
  cases r <;> simp [check]

/-- Outcome of a run without the graph, so that it is decidable. -/
def outcome {α : Type} (r : Res α) : Res Unit := r >>= fun _ => .ok ()

theorem outcome_ub {α : Type} {r : Res α} : outcome r = .ub ↔ r = .ub := by
  cases r <;> simp [outcome]
theorem outcome_throws {α : Type} {r : Res α} : outcome r = .throws ↔ r = .throws := by
  cases r <;> simp [outcome]

instance (n : Nat) (ops : List Op) : Decidable (OpsInRange n ops) := by
  unfold OpsInRange; infer_instance

theorem real_run {n : Nat} {ops : List Op} (h : 2 ≤ n ∧ n ≤ 17 ∧ ops.length ≤ 18 ∧ OpsInRange n ops) :
    run refK2 realSizing n ops = run refK2 tabSizing n ops :=
  run_tab_real refK2_lawful refK2_forcedPure h.1 h.2.1 h.2.2.1 h.2.2.2

/-- The same under any thresholds that agree with the table. -/
theorem tab_run {S : Sizing} (hS : Agree tabSizing S 2 17) {n : Nat} {ops : List Op}
    (h : 2 ≤ n ∧ n ≤ 17 ∧ ops.length ≤ 18 ∧ OpsInRange n ops) : run refK2 S n ops = run refK2 tabSizing n ops :=
  run_tab refK2_lawful refK2_forcedPure hS h.1 h.2.1 h.2.2.1 h.2.2.2

/-- Buffer full of erased slots: the next insertion writes past `edge_free`. -/
def wSlot : List Op := [.add (1, 2), .del (1, 2), .add (1, 2), .add (2, 0)]

/-- Three edges in one level, two of them deleted: the rebuild runs with an empty buffer. -/
def wDrift : List Op := [.add (0, 0), .add (2, 0), .add (2, 1), .del (0, 0), .del (2, 1)]

/-- As `wDrift`, but the surviving edge is `(1,1)`. -/
def wNull : List Op := [.add (1, 2), .add (0, 1), .add (1, 1), .del (1, 2), .del (0, 1)]

/-- A legal insertion that throws "collection too big". -/
def wThrow : List Op := [.add (1, 0), .add (2, 1), .add (0, 1), .add (0, 0), .add (2, 2),
  .del (0, 1), .del (2, 1), .add (0, 1)]

/-- The rebuild erases the user's edge `(1,1)`. -/
def wLost : List Op := [.add (1, 2), .add (3, 1), .add (0, 2), .add (3, 0), .add (3, 2), .add (0, 0),
  .add (2, 0), .add (1, 3), .del (2, 0), .del (3, 1), .del (1, 2), .del (3, 2), .add (1, 1), .del (0, 2)]

/-- The rebuild stores the tree above `max_r`. -/
def wAbove : List Op := [.add (0, 2), .add (1, 0), .add (0, 0), .add (1, 1), .del (0, 0), .add (2, 1),
  .add (2, 0), .del (2, 1), .add (0, 1), .add (0, 0), .add (2, 1), .del (0, 2), .del (1, 1), .del (0, 1)]

/-- Deleting an absent edge triggers the rebuild. -/
def wAbsent : List Op := [.add (1, 0), .add (0, 1), .add (1, 2), .add (0, 2), .del (1, 0), .del (0, 1),
  .del (0, 2)]

/-- The 6th insertion stores a level at its capacity. -/
def wCap : List Op := [.add (0, 0), .add (0, 1), .add (0, 2), .add (0, 3), .add (1, 0)]

theorem wSlot_of {S : Sizing} (hS : Agree tabSizing S 2 17) : run refK2 S 3 wSlot = .ub := by
  rw [tab_run hS (by decide), ← outcome_ub]; decide

theorem wSlot_real : run refK2 realSizing 3 wSlot = .ub := wSlot_of agree_tab_real

theorem wNull_of {S : Sizing} (hS : Agree tabSizing S 2 17) : run refK2 S 3 wNull = .ub := by
  rw [tab_run hS (by decide), ← outcome_ub]; decide

theorem wNull_real : run refK2 realSizing 3 wNull = .ub := wNull_of agree_tab_real

theorem wThrow_of {S : Sizing} (hS : Agree tabSizing S 2 17) : run refK2 S 3 wThrow = .throws := by
  rw [tab_run hS (by decide), ← outcome_throws]; decide

theorem wThrow_real : run refK2 realSizing 3 wThrow = .throws := wThrow_of agree_tab_real

/-- Membership in the specification is decidable on concrete histories. -/
def specMemB (ops : List Op) (e : Edge) : Bool :=
  ops.foldl (fun b o => match o with
    | .add e' => b || decide (e = e')
    | .del e' => b && decide (e ≠ e')) false

theorem specMemB_iff (ops : List Op) (e : Edge) : specMemB ops e = true ↔ specMem ops e := by
  rw [specMem_iff_specRun]
  induction ops using List.reverseRecOn with
  | nil => simp [specMemB, specRun]
  | append_singleton ops o ih =>
    rw [specRun_concat]
    have : specMemB (ops ++ [o]) e = (match o with
        | .add e' => specMemB ops e || decide (e = e')
        | .del e' => specMemB ops e && decide (e ≠ e')) := by
      simp [specMemB]
    rw [this]
    cases o with
    | add e' => simp [specStep, ih, or_comm]
    | del e' => simp [specStep, ih, and_comm]

instance (ops : List Op) (e : Edge) : Decidable (specMem ops e) :=
  decidable_of_iff _ (specMemB_iff ops e)

end DK
end DK2
