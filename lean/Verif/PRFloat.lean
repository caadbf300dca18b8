import Verif.PropsRank
/-!
# `pageRank` with rounding

`pageRank` of Algorithm.hpp computed in floating point: `double` operations, and a reciprocal of the out-degree in single
precision (`1.0f / outgoing_link[i].size()`, Algorithm.hpp:243, is a `float`). The arithmetic is unknown but for a bound on
the error of each operation.
-/

namespace DK2
open DK GraphI

/-! ## The arithmetic -/

/-- The floating-point operations of `pageRank`. A `double` is represented by the number it stands for. `inv m` is
`1.0f / m` for a `double` holding the natural number `m`, `inv32 m` is `1.0f / m` for an integer `m` (computed as `float`). -/
structure FArith (F : Type) where
  add : F → F → F
  sub : F → F → F
  mul : F → F → F
  inv : Nat → F
  inv32 : Nat → F

section
variable {F : Type} [Field F] [LinearOrder F]

/-- The operations have relative error `u` on operands up to `B` (no overflow), a product may in addition have an absolute
error `eta` (underflow) and is not negative if its factors are not; the single-precision reciprocal has relative error `w`. -/
structure FArith.Acc (A : FArith F) (u w eta B : F) : Prop where
  add : ∀ x y, |x| ≤ B → |y| ≤ B → |A.add x y - (x + y)| ≤ u * |x + y|
  sub : ∀ x y, |x| ≤ B → |y| ≤ B → |A.sub x y - (x - y)| ≤ u * |x - y|
  mul : ∀ x y, |x| ≤ B → |y| ≤ B → |A.mul x y - x * y| ≤ u * |x * y| + eta
  mul_nonneg : ∀ x y, 0 ≤ x → 0 ≤ y → 0 ≤ A.mul x y
  inv : ∀ m : Nat, 0 < m → m ≤ 2 ^ 53 → |A.inv m - 1 / m| ≤ u * (1 / m)
  inv32 : ∀ m : Nat, 0 < m → m ≤ 2 ^ 53 → |A.inv32 m - 1 / m| ≤ w * (1 / m)

/-- What IEEE-754 guarantees: `double` operations rounded to nearest, operands up to `2^500` (so that no product
overflows), gradual underflow; a `size_t` rounded to `float` and a `float` division. -/
def FArith.IEEE (A : FArith F) : Prop := A.Acc (1 / 2 ^ 53) (1 / 2 ^ 22) (1 / 2 ^ 1074) (2 ^ 500)

/-- Exact arithmetic. -/
def FArith.exact (F : Type) [Field F] : FArith F := ⟨(· + ·), (· - ·), (· * ·), fun m => 1 / m, fun m => 1 / m⟩

end

/-! ## The code -/

namespace GraphI
variable {F : Type} [Field F] [LinearOrder F]

/-- `pr[i] += d` (Algorithm.hpp:244, 247). -/
def fAddAt (A : FArith F) (l : List F) (i : Nat) (d : F) : Res (List F) := do
  let x ← rd l i
  wr l i (A.add x d)

/-- The loop over the outgoing links of `i` (Algorithm.hpp:240-245); the added value `d` does not change in it. -/
def fSpread (A : FArith F) (d : F) : List Nat → List F → Res (List F)
  | [], pr => .ok pr
  | v :: vs, pr => do
    let pr ← fAddAt A pr v d
    fSpread A d vs pr

/-- `err` (Algorithm.hpp:249-252). -/
def fErr (A : FArith F) (pr old : List F) : F := (pr.zip old).foldl (fun e p => A.add e |A.sub p.1 p.2|) 0

/-- The `for` loop over the nodes (Algorithm.hpp:238-260): `inl` when the convergence test returns from inside it. -/
def fSweep (A : FArith F) (alpha conv dsum : F) (n : Nat) (out : List (List Nat)) (old : List F) :
    List Nat → List F → Res (List F ⊕ List F)
  | [], pr => .ok (.inr pr)
  | i :: is, pr => do
    let o ← rd out i
    let x ← rd old i
    let pr ← fSpread A (A.mul (A.mul alpha x) (A.inv32 o.length)) o pr
    let pr ← fAddAt A pr i (A.add (A.mul dsum (A.inv n)) (A.mul (A.sub 1 alpha) (A.inv n)))
    if fErr A pr old < A.mul n conv then .ok (.inl pr)
    else fSweep A alpha conv dsum n out old is pr

/-- `dangling_sum` (Algorithm.hpp:232-236), added up in `acc`. -/
def fDang (A : FArith F) (old : List F) : List Nat → F → Res F
  | [], acc => .ok acc
  | k :: ks, acc => do
    let x ← rd old k
    fDang A old ks (A.add acc x)

/-- One turn of the `while` loop (Algorithm.hpp:229-260). -/
def fTurn (A : FArith F) (alpha conv : F) (n : Nat) (out : List (List Nat)) (dang : List Nat) (old : List F) :
    Res (List F ⊕ List F) := do
  let d ← fDang A old dang 0
  fSweep A alpha conv (A.mul d alpha) n out old (List.range n) (List.replicate n 0)

/-- The `while (step < max_iterations)` loop (Algorithm.hpp:228-262). -/
def fLoop (A : FArith F) (alpha conv : F) (n : Nat) (out : List (List Nat)) (dang : List Nat) : Nat → List F → Res (List F)
  | 0, pr => .ok pr
  | k + 1, pr => do
    let r ← fTurn A alpha conv n out dang pr
    match r with
    | .inl pr => .ok pr
    | .inr pr => fLoop A alpha conv n out dang k pr

/-- `pageRank(convergence, max_iterations, alpha)` (Algorithm.hpp:205-269) in the arithmetic `A`: the ranks of `0..N-1`.
`N` and `total_nodes` are exact as `double` (below `2^53`). Simplified: without any link the code starts with infinite
ranks, here with `A.inv 0`; the theorems are about graphs with an edge. -/
def pageRankF (G : GraphI) (A : FArith F) (conv : F) (maxIter : Nat) (alpha : F) : Res (List F) := do
  let out ← G.outLinks (List.range G.nodes)
  let total := (out.filter (fun l => !l.isEmpty)).length
  let dang := (List.range G.nodes).filter (fun i => ((out[i]?).getD []).isEmpty)
  fLoop A alpha conv G.nodes out dang maxIter (List.replicate G.nodes (A.inv total))

end GraphI

/-! ## Exact arithmetic gives the model of C27, C28 and C94 -/

namespace PR
variable {F : Type} [Field F] [LinearOrder F]

theorem fAddAt_exact (l : List F) (i : Nat) (d : F) : fAddAt (.exact F) l i d = addAt l i d := rfl

theorem fSpread_exact (d : F) : ∀ (vs : List Nat) (pr : List F), fSpread (.exact F) d vs pr = spread d vs pr := by
  intro vs
  induction vs with
  | nil => intro pr; rfl
  | cons v vs ih =>
    intro pr
    unfold fSpread spread
    rw [fAddAt_exact]
    simp only [ih]

theorem fErr_exact (pr old : List F) : fErr (.exact F) pr old = prErr pr old := by
  have : ∀ (l : List (F × F)) (e : F), l.foldl (fun e p => e + |p.1 - p.2|) e = e + (l.map (fun p => |p.1 - p.2|)).sum := by
    intro l
    induction l with
    | nil => intro e; simp
    | cons p l ih => intro e; rw [List.foldl_cons, ih, List.map_cons, List.sum_cons, add_assoc]
  have := this (pr.zip old) 0
  rw [zero_add] at this
  exact this

theorem fSweep_exact (alpha conv dsum : F) (n : Nat) (out : List (List Nat)) (old : List F) :
    ∀ (is : List Nat) (pr : List F), fSweep (.exact F) alpha conv dsum n out old is pr = prSweep alpha conv dsum n out old is pr := by
  intro is
  induction is with
  | nil => intro pr; rfl
  | cons i is ih =>
    intro pr
    unfold fSweep prSweep
    simp only [fSpread_exact, fAddAt_exact, fErr_exact, ih]
    rfl

theorem fDang_exact (old : List F) : ∀ (ks : List Nat) (acc : F),
    fDang (.exact F) old ks acc = (danglingSum old ks >>= fun d => .ok (acc + d)) := by
  intro ks
  induction ks with
  | nil => intro acc; simp [fDang, danglingSum]
  | cons k ks ih =>
    intro acc
    unfold fDang danglingSum
    cases h : rd old k with
    | ok x =>
      simp only [Res.ok_bind]
      rw [ih]
      show (danglingSum old ks >>= fun d => Res.ok (acc + x + d)) = _
      cases danglingSum old ks <;> simp [Res.ok_bind, add_assoc]
      all_goals rfl
    | _ => rfl

theorem fLoop_exact (alpha conv : F) (n : Nat) (out : List (List Nat)) (dang : List Nat) : ∀ (k : Nat) (pr : List F),
    fLoop (.exact F) alpha conv n out dang k pr = prLoop alpha conv n out dang k pr := by
  intro k
  induction k with
  | zero => intro pr; rfl
  | succ k ih =>
    intro pr
    have ht : fTurn (.exact F) alpha conv n out dang pr = prTurn alpha conv n out dang pr := by
      unfold fTurn prTurn
      rw [fDang_exact]
      cases danglingSum pr dang with
      | ok d =>
        simp only [Res.ok_bind, zero_add]
        rw [fSweep_exact]; rfl
      | _ => rfl
    unfold fLoop prLoop
    rw [ht]
    simp only [ih]
    rfl

/-- The rounding model with exact arithmetic is the exact model. -/
theorem pageRankF_exact (G : GraphI) (conv alpha : F) (k : Nat) :
    G.pageRankF (.exact F) conv k alpha = G.pageRank conv k alpha := by
  unfold pageRankF pageRank
  simp only [fLoop_exact]
  rfl

end PR
end DK2
