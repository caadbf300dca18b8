import Verif.RealSizing
import Verif.Witness
/-!
# `realSizing` with a table for small sizes

`hybSizing` is `realSizing`, but computes by table where the size is at most 35; so a concrete run of any
model under `realSizing` can be evaluated by the kernel.
-/

namespace DK2

/-- `MAXSZ(m, i)` as a table for `2 ≤ m ≤ 35`, `i ≤ 8`. -/
def hybMax : Nat → List Nat
  | 2 => [4, 4, 4, 4, 4, 4, 4, 4, 4]
  | 3 => [2, 2, 3, 3, 3, 4, 4, 5, 6]
  | 4 => [2, 2, 2, 3, 4, 4, 5, 6, 8]
  | 5 => [1, 2, 2, 3, 4, 5, 6, 8, 10]
  | 6 => [1, 2, 2, 3, 4, 5, 7, 9, 12]
  | 7 => [1, 2, 2, 3, 4, 6, 8, 10, 14]
  | 8 => [1, 2, 3, 4, 5, 7, 9, 12, 16]
  | 9 => [1, 2, 3, 4, 5, 7, 10, 13, 18]
  | 10 => [1, 2, 3, 4, 6, 8, 10, 14, 20]
  | 11 => [1, 2, 3, 4, 6, 8, 11, 16, 22]
  | 12 => [1, 2, 3, 4, 6, 9, 12, 17, 24]
  | 13 => [1, 2, 3, 5, 7, 9, 13, 18, 26]
  | 14 => [1, 2, 3, 5, 7, 10, 14, 20, 28]
  | 15 => [1, 2, 3, 5, 7, 10, 15, 21, 30]
  | 16 => [2, 2, 4, 5, 8, 11, 16, 22, 32]
  | 17 => [2, 2, 4, 5, 8, 11, 16, 23, 34]
  | 18 => [2, 2, 4, 6, 8, 12, 17, 25, 36]
  | 19 => [2, 3, 4, 6, 8, 12, 18, 26, 38]
  | 20 => [2, 3, 4, 6, 9, 13, 19, 27, 40]
  | 21 => [2, 3, 4, 6, 9, 13, 20, 29, 42]
  | 22 => [2, 3, 4, 6, 9, 14, 20, 30, 44]
  | 23 => [2, 3, 4, 6, 10, 14, 21, 31, 46]
  | 24 => [2, 3, 4, 7, 10, 15, 22, 32, 48]
  | 25 => [2, 3, 4, 7, 10, 15, 23, 34, 50]
  | 26 => [2, 3, 5, 7, 11, 16, 23, 35, 52]
  | 27 => [2, 3, 5, 7, 11, 16, 24, 36, 54]
  | 28 => [2, 3, 5, 7, 11, 17, 25, 37, 56]
  | 29 => [2, 3, 5, 8, 11, 17, 26, 39, 58]
  | 30 => [2, 3, 5, 8, 12, 18, 27, 40, 60]
  | 31 => [2, 3, 5, 8, 12, 18, 27, 41, 62]
  | 32 => [2, 3, 5, 8, 12, 19, 28, 42, 64]
  | 33 => [2, 3, 5, 8, 13, 19, 29, 44, 66]
  | 34 => [2, 3, 5, 8, 13, 20, 30, 45, 68]
  | 35 => [2, 4, 6, 9, 13, 20, 30, 46, 70]
  | _ => []

/-- The rebuild threshold `⌊n / TAU(n)⌋` as a table for `3 ≤ n ≤ 35`. -/
def hybThr : Nat → Nat
  | 3 => 4
  | 4 => 4
  | 5 => 4
  | 6 => 4
  | 7 => 4
  | 8 => 5
  | 9 => 5
  | 10 => 5
  | 11 => 6
  | 12 => 6
  | 13 => 6
  | 14 => 7
  | 15 => 7
  | 16 => 8
  | 17 => 8
  | 18 => 8
  | 19 => 9
  | 20 => 9
  | 21 => 9
  | 22 => 10
  | 23 => 10
  | 24 => 10
  | 25 => 11
  | 26 => 11
  | 27 => 12
  | 28 => 12
  | 29 => 12
  | 30 => 13
  | 31 => 13
  | 32 => 13
  | 33 => 14
  | 34 => 14
  | 35 => 14
  | _ => 0

/-- `(a, b, c)` with `a/b ≤ log2 m ≤ c/b`. -/
def hybLog : Nat → Nat × Nat × Nat
  | 2 => (1, 1, 1)
  | 3 => (45, 29, 46)
  | 4 => (2, 1, 2)
  | 5 => (18, 8, 19)
  | 6 => (18, 7, 19)
  | 7 => (87, 31, 88)
  | 8 => (3, 1, 3)
  | 9 => (28, 9, 29)
  | 10 => (129, 39, 130)
  | 11 => (27, 8, 28)
  | 12 => (32, 9, 33)
  | 13 => (51, 14, 52)
  | 14 => (45, 12, 46)
  | 15 => (31, 8, 32)
  | 16 => (4, 1, 4)
  | 17 => (69, 17, 70)
  | 18 => (87, 21, 88)
  | 19 => (127, 30, 128)
  | 20 => (25, 6, 26)
  | 21 => (122, 28, 123)
  | 22 => (31, 7, 32)
  | 23 => (104, 23, 105)
  | 24 => (50, 11, 51)
  | 25 => (195, 42, 196)
  | 26 => (155, 33, 156)
  | 27 => (175, 37, 176)
  | 28 => (38, 8, 39)
  | 29 => (150, 31, 151)
  | 30 => (53, 11, 54)
  | 31 => (54, 11, 55)
  | 32 => (5, 1, 5)
  | 33 => (80, 16, 81)
  | 34 => (91, 18, 92)
  | 35 => (194, 38, 195)
  | _ => (0, 1, 1)


/-- The numeric facts behind one entry of `hybMax`. -/
def hybOk (m i : Nat) : Bool :=
  let v := ((hybMax m)[i]?).getD 0
  let l := hybLog m
  decide (0 < l.2.1 ∧ 2 ^ l.1 ≤ m ^ l.2.1 ∧ m ^ l.2.1 ≤ 2 ^ l.2.2 ∧
    v ^ 4 * l.2.2 ^ (8 - i) ≤ (2 * m) ^ 4 * l.2.1 ^ (8 - i) ∧
    (2 * m) ^ 4 * l.2.1 ^ (8 - i) < (v + 1) ^ 4 * l.1 ^ (8 - i))

/-- The numeric facts behind one entry of `hybThr`. -/
def hybThrOk (n : Nat) : Bool :=
  let t := hybThr n
  let l := hybLog n
  decide (0 < l.2.1 ∧ 2 ^ l.1 ≤ n ^ l.2.1 ∧ n ^ l.2.1 ≤ 2 ^ l.2.2 ∧ l.2.1 < l.1 ∧
    l.2.2 ^ t ≤ 2 ^ n * l.2.1 ^ t ∧ 2 ^ n * l.2.1 ^ (t + 1) < l.1 ^ (t + 1))

theorem hyb_all : ∀ m, m < 36 → 2 ≤ m → ∀ i, i < 9 → hybOk m i = true := by decide +kernel

theorem hybThr_all : ∀ n, n < 36 → 3 ≤ n → hybThrOk n = true := by decide +kernel

theorem hyb_maxsz {m i : Nat} (h1 : 2 ≤ m) (h2 : m < 36) (hi : i < 9) :
    realSizing.maxsz m i = ((hybMax m)[i]?).getD 0 := by
  have h := hyb_all m h2 h1 i hi
  simp only [hybOk, decide_eq_true_eq] at h
  obtain ⟨a1, a2, a3, a4, a5⟩ := h
  exact maxsz_eq h1 (by omega) a1 a1 a2 a3 a4 a5

theorem hyb_rebuild {n : Nat} (h1 : 3 ≤ n) (h2 : n < 36) (k : Nat) :
    realSizing.rebuild k n = decide (hybThr n < k) := by
  have h := hybThr_all n h2 h1
  simp only [hybThrOk, decide_eq_true_eq] at h
  obtain ⟨a1, a2, a3, a4, a5, a6⟩ := h
  exact rebuild_eq h1 a1 a1 a2 a3 a4 a5 a6 k

/-- `realSizing`, computed by table for small sizes. -/
noncomputable def hybSizing : Sizing where
  maxsz m i := if 2 ≤ m ∧ m < 36 ∧ i < 9 then ((hybMax m)[i]?).getD 0 else realSizing.maxsz m i
  rebuild k n :=
    if n = 0 then false else if n = 1 then decide (0 < k) else if n = 2 then false
    else if n < 36 then decide (hybThr n < k) else realSizing.rebuild k n

theorem realSizing_eq_hyb : realSizing = hybSizing := by
  have h1 : realSizing.maxsz = hybSizing.maxsz := by
    funext m i
    show _ = if 2 ≤ m ∧ m < 36 ∧ i < 9 then _ else _
    split
    · rename_i h; exact hyb_maxsz h.1 h.2.1 h.2.2
    · rfl
  have h2 : realSizing.rebuild = hybSizing.rebuild := by
    funext k n
    show realSizing.rebuild k n = if n = 0 then _ else if n = 1 then _ else if n = 2 then _
      else if n < 36 then _ else _
    split
    · rename_i h; subst h; rfl
    · split
      · rename_i h; subst h; rfl
      · split
        · rename_i h; subst h; rfl
        · split
          · rename_i h; exact hyb_rebuild (by omega) h k
          · rfl
  cases hr : realSizing
  cases hh : hybSizing
  rw [hr, hh] at h1 h2
  simp only at h1 h2
  rw [h1, h2]

end DK2
