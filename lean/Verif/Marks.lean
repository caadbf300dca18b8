import Verif.DelayProofs
/-!
# Erased edges of the levels

`erase` of a tree marks the edge; the marked edges of all levels are counted in the sum of `total_edges()` that the search
for a level uses.
-/

namespace DK2

/-- `erase` marks one edge when it finds it and none otherwise (`total_edges()` and `get_marked_edges()`, used at
DKtree.hpp:197-200; not part of `Lawful` because only the rebuild threshold depends on it). -/
def K2Impl.MarksOne (K : K2Impl) : Prop := ∀ n t e, K.valid n t → InRange n e →
  K.marked (K.erase t e).2 ≤ K.marked t + (if (K.erase t e).1 then 1 else 0)

namespace DK

variable {K : K2Impl}

/-- All marked edges of the levels. -/
def marks (K : K2Impl) (ks : List (Option K.T)) : Nat := (ks.map (fun o => o.elim 0 K.marked)).sum

@[simp] theorem marks_nil : marks K [] = 0 := rfl
@[simp] theorem marks_none (ks : List (Option K.T)) : marks K (none :: ks) = marks K ks := by simp [marks]
@[simp] theorem marks_some (t : K.T) (ks : List (Option K.T)) :
    marks K (some t :: ks) = K.marked t + marks K ks := by simp [marks]

theorem marks_append (a b : List (Option K.T)) : marks K (a ++ b) = marks K a + marks K b := by
  simp [marks]

theorem marks_replicate (n : Nat) : marks K (List.replicate n none) = 0 := by
  induction n with
  | zero => rfl
  | succ n ih => simp [List.replicate_succ, ih]

theorem marks_drop (n : Nat) (ks : List (Option K.T)) : marks K (ks.drop n) ≤ marks K ks := by
  conv_rhs => rw [← List.take_append_drop n ks]
  rw [marks_append]; omega

theorem totals_eq (hK : K.Lawful) {n : Nat} : ∀ {ks : List (Option K.T)}, AllValid K n ks →
    (ks.map (fun o => o.elim 0 K.total)).sum = (flat K ks).length + marks K ks := by
  intro ks
  induction ks with
  | nil => intro _; simp
  | cons o ks ih =>
    intro hv
    have := ih hv.tail
    cases o with
    | none => simpa using this
    | some t =>
      have h1 := hK.total_eq n t hv.head
      simp [this]; omega

end DK

namespace DKD
open DK
variable {K : K2Impl}

theorem marks_set {i : Nat} {p : Option K.T} (o : Option K.T) : ∀ {E : List (Option K.T)}, E[i]? = some p →
    marks K (E.set i o) + p.elim 0 K.marked = marks K E + o.elim 0 K.marked := by
  induction i with
  | zero =>
    intro E h
    cases E with
    | nil => cases h
    | cons a E =>
      simp only [List.length_cons, Nat.zero_lt_succ, List.getElem?_eq_getElem, List.getElem_cons_zero,
        Option.some.injEq] at h
      subst h
      simp only [List.set_cons_zero, marks, List.map_cons, List.sum_cons]
      omega
  | succ i ih =>
    intro E h
    cases E with
    | nil => cases h
    | cons a E =>
      have := ih (E := E) (by simpa using h)
      simp only [marks, List.set_cons_succ, List.map_cons, List.sum_cons] at this ⊢
      omega

theorem eraseFirst_marks (hM : K.MarksOne) {n : Nat} {e : Edge} (he : InRange n e) :
    ∀ {ks : List (Option K.T)}, AllValid K n ks →
      (eraseFirst K e ks).2.1 ≤ marks K ks + (if (eraseFirst K e ks).1 then 1 else 0) ∧
      marks K (eraseFirst K e ks).2.2 ≤ marks K ks + (if (eraseFirst K e ks).1 then 1 else 0) := by
  intro ks
  induction ks with
  | nil => intro _; simp [eraseFirst]
  | cons o ks ih =>
    intro hv
    obtain ⟨i1, i2⟩ := ih hv.tail
    cases o with
    | none =>
      have h1 : (eraseFirst K e (none :: ks)).1 = (eraseFirst K e ks).1 := rfl
      have h2 : (eraseFirst K e (none :: ks)).2.1 = (eraseFirst K e ks).2.1 := rfl
      have h3 : (eraseFirst K e (none :: ks)).2.2 = none :: (eraseFirst K e ks).2.2 := rfl
      rw [h1, h2, h3, marks_none, marks_none]
      exact ⟨i1, i2⟩
    | some t =>
      have h1 := hM n t e hv.head he
      simp only [eraseFirst]
      by_cases hb : (K.erase t e).1 = true
      · rw [hb] at h1
        simp only [if_true] at h1
        simp only [hb, if_true]
        split
        · simp only [marks_none, marks_some, if_true]; omega
        · simp only [marks_some, if_true]; omega
      · have hb' : (K.erase t e).1 = false := by simpa using hb
        rw [hb'] at h1
        simp only [Bool.false_eq_true, if_false] at h1
        simp only [hb', Bool.false_eq_true, if_false, marks_some]
        omega

end DKD
end DK2
