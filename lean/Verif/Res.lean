/-!
# Outcomes of a C++ call

`/repo` is C++; the ways a call can end are kept apart so that no theorem is true merely because an
erroneous execution was given a harmless value.
-/

namespace DK2

/-- Outcome of a modelled C++ call.
* `ok a`     – the call returns `a`;
* `throws`   – a C++ exception leaves the call (e.g. `logic_error`, DKtree.hpp:119-120);
* `ub`       – undefined behaviour: vector index out of bounds, null dereference, use of an
               indeterminate value;
* `abort`    – a failed `assert` (DKtree_delay.hpp:179);
* `diverge`  – a `while` loop that does not end. -/
inductive Res (α : Type) where
  | ok (a : α)
  | throws
  | ub
  | abort
  | diverge
  deriving DecidableEq, Repr

namespace Res

/-- Sequencing: the first abnormal outcome ends the call. -/
def bind {α β : Type} : Res α → (α → Res β) → Res β
  | ok a, f => f a
  | throws, _ => throws
  | ub, _ => ub
  | abort, _ => abort
  | diverge, _ => diverge

instance : Monad Res where
  pure := ok
  bind := bind

@[simp] theorem ok_bind {α β : Type} (a : α) (f : α → Res β) : (ok a >>= f) = f a := rfl
@[simp] theorem throws_bind {α β : Type} (f : α → Res β) : ((throws : Res α) >>= f) = throws := rfl
@[simp] theorem ub_bind {α β : Type} (f : α → Res β) : ((ub : Res α) >>= f) = ub := rfl
@[simp] theorem abort_bind {α β : Type} (f : α → Res β) : ((abort : Res α) >>= f) = abort := rfl
@[simp] theorem diverge_bind {α β : Type} (f : α → Res β) :
    ((diverge : Res α) >>= f) = diverge := rfl
@[simp] theorem pure_eq {α : Type} (a : α) : (pure a : Res α) = ok a := rfl

theorem bind_eq_ok {α β : Type} {r : Res α} {f : α → Res β} {b : β} :
    (r >>= f) = ok b ↔ ∃ a, r = ok a ∧ f a = ok b := by
  cases r <;> simp

end Res

/-- `v[i]` read from a `std::vector` (unchecked `operator[]`): out of bounds is UB. -/
def rd {α : Type} (l : List α) (i : Nat) : Res α :=
  match l[i]? with
  | some a => .ok a
  | none => .ub

/-- `v[i] = a` on a `std::vector`: out of bounds is UB. -/
def wr {α : Type} (l : List α) (i : Nat) (a : α) : Res (List α) :=
  if i < l.length then .ok (l.set i a) else .ub

/-- Use of a value that may be indeterminate (`none`): UB. -/
def use {α : Type} : Option α → Res α
  | some a => .ok a
  | none => .ub

/-- `std::vector::resize(n)` with fill value `d`. -/
def vresize {α : Type} (l : List α) (n : Nat) (d : α) : List α :=
  l.take n ++ List.replicate (n - l.length) d

@[simp] theorem rd_eq_ok {α : Type} {l : List α} {i : Nat} {a : α} :
    rd l i = .ok a ↔ l[i]? = some a := by
  unfold rd; split <;> simp_all

@[simp] theorem wr_eq_ok {α : Type} {l l' : List α} {i : Nat} {a : α} :
    wr l i a = .ok l' ↔ i < l.length ∧ l' = l.set i a := by
  unfold wr; split <;> rename_i h <;> simp [h, eq_comm]

@[simp] theorem use_eq_ok {α : Type} {o : Option α} {a : α} :
    use o = .ok a ↔ o = some a := by
  cases o <;> simp [use]

theorem rd_of {α : Type} {l : List α} {i : Nat} {a : α} (h : l[i]? = some a) :
    rd l i = .ok a := rd_eq_ok.2 h

theorem wr_of {α : Type} {l : List α} {i : Nat} {a : α} (h : i < l.length) :
    wr l i a = .ok (l.set i a) := wr_eq_ok.2 ⟨h, rfl⟩

/-- Function update, the model of `map[k] = v` / `map.erase(k)`. -/
def upd {α β : Type} [DecidableEq α] (f : α → β) (a : α) (b : β) : α → β :=
  fun x => if x = a then b else f x

@[simp] theorem upd_same {α β : Type} [DecidableEq α] (f : α → β) (a : α) (b : β) :
    upd f a b a = b := by simp [upd]

@[simp] theorem upd_other {α β : Type} [DecidableEq α] (f : α → β) {a x : α} (b : β)
    (h : x ≠ a) : upd f a b x = f x := by simp [upd, h]

end DK2
