import Verif.BitsProofs
import Verif.Union
/-!
# `k2_tree_union_support` computes the union
-/

namespace DK2
namespace US
open Bits

/-! ### the result vectors -/

/-- `C` holds the bits `w` and zeros up to its capacity. -/
def Padded (C w : List Bool) (cap : Nat) : Prop :=
  C = w ++ List.replicate (cap - w.length) false ∧ w.length ≤ cap

theorem Padded.init (cap : Nat) : Padded (List.replicate cap false) [] cap := by
  simp [Padded]

theorem Padded.one {C w : List Bool} {cap : Nat} (h : Padded C w cap) (hl : w.length < cap) :
    ∃ C', wr C w.length true = .ok C' ∧ Padded C' (w ++ [true]) cap := by
  obtain ⟨h1, h2⟩ := h
  refine ⟨_, wr_of ?_, ?_, ?_⟩
  · rw [h1]; simp; omega
  · rw [h1, List.set_append_right _ _ (le_refl _)]
    rw [Nat.sub_self, List.append_assoc]
    congr 1
    obtain ⟨j, hj⟩ : ∃ j, cap - w.length = j + 1 := ⟨cap - w.length - 1, by omega⟩
    rw [hj, List.replicate_succ]
    simp only [List.set_cons_zero, List.length_append, List.length_cons, List.length_nil, Nat.zero_add]
    rw [show cap - (w.length + 1) = j by omega]; rfl
  · simp; omega

theorem Padded.zero {C w : List Bool} {cap : Nat} (h : Padded C w cap) (hl : w.length < cap) :
    Padded C (w ++ [false]) cap := by
  obtain ⟨h1, h2⟩ := h
  refine ⟨?_, by simp; omega⟩
  rw [h1, List.append_assoc]
  congr 1
  obtain ⟨j, hj⟩ : ∃ j, cap - w.length = j + 1 := ⟨cap - w.length - 1, by omega⟩
  rw [hj, List.replicate_succ, List.length_append, show cap - (w.length + [false].length) = j by simp; omega]
  rfl

theorem Padded.take {C w : List Bool} {cap : Nat} (h : Padded C w cap) : C.take w.length = w := by
  rw [h.1]; simp

theorem Padded.len {C w : List Bool} {cap : Nat} (h : Padded C w cap) : C.length = cap := by
  rw [h.1]; simp; have := h.2; omega

/-! ### reading the trees -/

/-- Tree `t` encodes predicate `A` at height `h`. -/
structure Enc (b h : Nat) (A : List Nat → Bool) (t : BT) : Prop where
  T : t.T = tBits b A h
  L : t.L = lBits b A h
  h : t.h = h
  closed : Closed A
  root : A [] = true

theorem readBit_spec {b h : Nat} {A : List Nat → Bool} {t : BT} (he : Enc b h A t) {d : Nat} (hd : d < h)
    {x y : List (List Nat)} {p : List Nat} (hx : nodes b A d = x ++ p :: y) {c : Nat} (hc : c < b) :
    readBit h t d (b * (cnt b A d + x.length) + c) = .ok (A (p ++ [c])) := by
  unfold readBit
  split
  · rename_i h1
    apply rd_of
    obtain ⟨post, hpost⟩ := upto_split b A (show d < h - 1 by omega)
    have hT : tBits b A h = (upto b A d ++ groups b A x) ++ group b A p ++ (groups b A y ++ post) := by
      rw [tBits_eq, hpost, bits_split hx]; simp
    have hlen : (upto b A d ++ groups b A x).length = b * (cnt b A d + x.length) := by
      rw [List.length_append, upto_length, groups_length]; ring
    rw [he.T, hT, ← hlen]; exact read_group hc
  · rename_i h1
    have h2 : h - 1 = d := by omega
    have h3 : t.T.length = b * cnt b A d := by rw [he.T, tBits_eq, upto_length, h2]
    rw [Nat.mul_add, if_neg (by omega)]
    apply rd_of
    rw [he.L, h3, lBits, h2, bits_split hx,
      show b * cnt b A d + b * x.length + c - b * cnt b A d = (groups b A x).length + c by
        rw [groups_length]; omega]
    exact read_group hc

theorem nextBit_spec {b h : Nat} {A : List Nat → Bool} {t : BT} (he : Enc b h A t) {d : Nat} (hd : d < h)
    {x y : List (List Nat)} {p : List Nat} (hx : A p = true → nodes b A d = x ++ p :: y) {c : Nat} (hc : c < b) :
    nextBit h t d (A p) (b * (cnt b A d + x.length) + if A p then c else 0) =
      .ok (A (p ++ [c]), b * (cnt b A d + x.length) + if A p then c + 1 else 0) := by
  unfold nextBit
  cases hp : A p with
  | false =>
    have : A (p ++ [c]) = false := by
      by_contra h1
      rw [Bool.not_eq_false] at h1
      rw [he.closed p c h1] at hp
      cases hp
    simp [this]
  | true =>
    simp only [if_true]
    rw [readBit_spec he hd (hx hp) hc, Res.ok_bind]
    rfl

/-! ### one group -/

section
variable (b h : Nat) (A B : List Nat → Bool)

/-- The union of two tree predicates. -/
def un (p : List Nat) : Bool := A p || B p

/-- The queue element of node `p` of level `d`. -/
def tag (d : Nat) (p : List Nat) : Nat × Bool × Bool := (d, A p, B p)

/-- `T` bits written once the groups of levels `< d` and of the nodes `x` of level `d` are done. -/
def wT (d : Nat) (x : List (List Nat)) : List Bool :=
  if d + 1 < h then upto b (un A B) d ++ groups b (un A B) x else upto b (un A B) (h - 1)

/-- `L` bits written at that moment. -/
def wL (d : Nat) (x : List (List Nat)) : List Bool := if d + 1 < h then [] else groups b (un A B) x

/-- Queue elements of level `d + 1` at that moment. -/
def wQ (d : Nat) (x : List (List Nat)) : List (Nat × Bool × Bool) :=
  if d + 1 < h then (x.flatMap (kids b (un A B))).map (tag A B (d + 1)) else []

/-- The state when the nodes `x` of level `d` are done and `y` are left, `c` children of `p` being done too when
`pc = some (p, c)`. -/
structure At (t : BT) (cT cL : Nat) (s : US) (d : Nat) (x y : List (List Nat)) : Prop where
  tmp : s.tmp = t
  split : nodes b (un A B) d = x ++ y
  lt : d < h
  q : s.Q = y.map (tag A B d) ++ wQ b h A B d x
  pA : s.pA = b * (cnt b A d + (x.filter A).length)
  pB : s.pB = b * (cnt b B d + (x.filter B).length)
  ct : Padded s.Ct (wT b h A B d x) cT
  cl : Padded s.Cl (wL b h A B d x) cL
  idxT : s.idxT = (wT b h A B d x).length
  idxL : s.idxL = (wL b h A B d x).length
  ne : s.ne = (wL b h A B d x).count true

/-- Inside the group of `p`: `c` children are done. -/
structure In (t : BT) (cT cL : Nat) (s : US) (d : Nat) (x y : List (List Nat)) (p : List Nat) (c : Nat) :
    Prop where
  tmp : s.tmp = t
  split : nodes b (un A B) d = x ++ p :: y
  lt : d < h
  le : c ≤ b
  q : s.Q = y.map (tag A B d) ++ (wQ b h A B d x ++
    if d + 1 < h then (kids c (un A B) p).map (tag A B (d + 1)) else [])
  pA : s.pA = b * (cnt b A d + (x.filter A).length) + if A p then c else 0
  pB : s.pB = b * (cnt b B d + (x.filter B).length) + if B p then c else 0
  ct : Padded s.Ct (wT b h A B d x ++ if d + 1 < h then group c (un A B) p else []) cT
  cl : Padded s.Cl (wL b h A B d x ++ if d + 1 < h then [] else group c (un A B) p) cL
  idxT : s.idxT = (wT b h A B d x ++ if d + 1 < h then group c (un A B) p else []).length
  idxL : s.idxL = (wL b h A B d x ++ if d + 1 < h then [] else group c (un A B) p).length
  ne : s.ne = (wL b h A B d x ++ if d + 1 < h then [] else group c (un A B) p).count true

end

variable {b h : Nat} {A B : List Nat → Bool} {t tB : BT} {cT cL : Nat}

theorem group_succ (c : Nat) (U : List Nat → Bool) (p : List Nat) :
    group (c + 1) U p = group c U p ++ [U (p ++ [c])] := by simp [group, List.range_succ]

theorem kids_succ (c : Nat) (U : List Nat → Bool) (p : List Nat) :
    kids (c + 1) U p = kids c U p ++ if U (p ++ [c]) then [p ++ [c]] else [] := by
  simp only [kids, List.range_succ, List.map_append, List.map_cons, List.map_nil, List.filter_append,
    List.filter_cons, List.filter_nil]

/-- The fields that processing groups does not touch. -/
def Keep (s s' : US) : Prop := s'.ki = s.ki ∧ s'.iter = s.iter ∧ s'.finish = s.finish ∧ s'.maxI = s.maxI

theorem Keep.refl (s : US) : Keep s s := ⟨rfl, rfl, rfl, rfl⟩
theorem Keep.trans {s s' s'' : US} (h1 : Keep s s') (h2 : Keep s' s'') : Keep s s'' :=
  ⟨h2.1.trans h1.1, h2.2.1.trans h1.2.1, h2.2.2.1.trans h1.2.2.1, h2.2.2.2.trans h1.2.2.2⟩

/-- The result vectors have room for the group that follows `x` at level `d`. -/
def Room (b h : Nat) (A B : List Nat → Bool) (cT cL d : Nat) (x : List (List Nat)) : Prop :=
  (d + 1 < h → (wT b h A B d x).length + b ≤ cT) ∧ (¬ d + 1 < h → (wL b h A B d x).length + b ≤ cL)

theorem room_of (hcT : (tBits b (un A B) h).length ≤ cT) (hcL : (lBits b (un A B) h).length ≤ cL) {d : Nat}
    (hd : d < h) {x y : List (List Nat)} {p : List Nat} (hs : nodes b (un A B) d = x ++ p :: y) :
    Room b h A B cT cL d x := by
  have hbits := bits_split hs
  constructor
  · intro hd
    refine le_trans ?_ hcT
    obtain ⟨post, hpost⟩ := upto_split b (un A B) (show d < h - 1 by omega)
    rw [tBits_eq, hpost, hbits, wT, if_pos hd]
    simp only [List.length_append, group_length]
    omega
  · intro hd'
    have hh : h - 1 = d := by omega
    refine le_trans ?_ hcL
    rw [lBits, hh, hbits, wL, if_neg hd']
    simp only [List.length_append, group_length]
    omega

theorem In.step (hA : Enc b h A t) (hB : Enc b h B tB) {s : US} {d : Nat} {x y : List (List Nat)} {p : List Nat}
    {c : Nat} (hroom : Room b h A B cT cL d x) (hi : In b h A B t cT cL s d x y p c) (hc : c < b) :
    ∃ (a' b' : Nat) (s' : US),
      nextBit h s.tmp d (A p) s.pA = .ok (A (p ++ [c]), a') ∧
      nextBit h tB d (B p) s.pB = .ok (B (p ++ [c]), b') ∧
      emit h d (A (p ++ [c])) (B (p ++ [c])) { s with pA := a', pB := b' } = .ok s' ∧
      In b h A B t cT cL s' d x y p (c + 1) ∧ s'.times = s.times ∧ Keep s s' := by
  have hsA : ∀ q, A q = true → un A B q = true := by intro q hq; simp [un, hq]
  have hsB : ∀ q, B q = true → un A B q = true := by intro q hq; simp [un, hq]
  have a1 : nextBit h s.tmp d (A p) s.pA = .ok (A (p ++ [c]),
      b * (cnt b A d + (x.filter A).length) + if A p then c + 1 else 0) := by
    rw [hi.tmp, hi.pA]
    refine nextBit_spec hA hi.lt (y := y.filter A) ?_ hc
    intro hp
    rw [← nodes_filter hsA hA.closed hA.root, hi.split, List.filter_append, List.filter_cons, if_pos hp]
  have b1 : nextBit h tB d (B p) s.pB = .ok (B (p ++ [c]),
      b * (cnt b B d + (x.filter B).length) + if B p then c + 1 else 0) := by
    rw [hi.pB]
    refine nextBit_spec hB hi.lt (y := y.filter B) ?_ hc
    intro hp
    rw [← nodes_filter hsB hB.closed hB.root, hi.split, List.filter_append, List.filter_cons, if_pos hp]
  refine ⟨b * (cnt b A d + (x.filter A).length) + if A p then c + 1 else 0,
    b * (cnt b B d + (x.filter B).length) + if B p then c + 1 else 0, ?_⟩
  have hU : un A B (p ++ [c]) = (A (p ++ [c]) || B (p ++ [c])) := rfl
  by_cases hd : d + 1 < h
  · -- an inner level
    have hlen : (wT b h A B d x ++ if d + 1 < h then group c (un A B) p else []).length < cT := by
      refine lt_of_lt_of_le ?_ (hroom.1 hd)
      rw [if_pos hd]
      simp only [List.length_append, group_length]
      omega
    have hct := hi.ct
    have hcl := hi.cl
    have hiT := hi.idxT
    have hiL := hi.idxL
    have hne := hi.ne
    have hq := hi.q
    simp only [if_pos hd] at hct hcl hiT hiL hne hq hlen
    unfold emit
    rw [if_pos hd]
    cases hu : (A (p ++ [c]) || B (p ++ [c])) with
    | true =>
      obtain ⟨C', w1, w2⟩ := hct.one hlen
      rw [if_pos rfl]
      refine ⟨{ s with
          pA := b * (cnt b A d + (x.filter A).length) + if A p then c + 1 else 0
          pB := b * (cnt b B d + (x.filter B).length) + if B p then c + 1 else 0
          Q := s.Q ++ [(d + 1, A (p ++ [c]), B (p ++ [c]))], Ct := C', idxT := s.idxT + 1 }, a1, b1, ?_, ?_, ?_⟩
      · simp only [hiT, w1, Res.ok_bind]
      · refine ⟨hi.tmp, hi.split, hi.lt, hc, ?_, rfl, rfl, ?_, ?_, ?_, ?_, ?_⟩
        · simp only [if_pos hd, hq, kids_succ, hU, hu, if_true, List.map_append, List.map_cons, List.map_nil, tag,
            List.append_assoc]
        · simp only [if_pos hd, group_succ, hU, hu, ← List.append_assoc]; exact w2
        · simpa only [if_pos hd] using hcl
        · simp only [if_pos hd, group_succ, hiT, List.length_append, List.length_cons, List.length_nil]; omega
        · simp only [if_pos hd]; exact hiL
        · simp only [if_pos hd]; exact hne
      · exact ⟨rfl, rfl, rfl, rfl, rfl⟩
    | false =>
      rw [if_neg Bool.false_ne_true]
      refine ⟨_, a1, b1, rfl, ?_, rfl, ⟨rfl, rfl, rfl, rfl⟩⟩
      refine ⟨hi.tmp, hi.split, hi.lt, hc, ?_, rfl, rfl, ?_, ?_, ?_, ?_, ?_⟩
      · simp only [if_pos hd, hq, kids_succ, hU, hu, Bool.false_eq_true, if_false, List.append_nil]
      · simp only [if_pos hd, group_succ, hU, hu, ← List.append_assoc]; exact hct.zero hlen
      · simpa only [if_pos hd] using hcl
      · simp only [if_pos hd, group_succ, hiT, List.length_append, List.length_cons, List.length_nil]; omega
      · simp only [if_pos hd]; exact hiL
      · simp only [if_pos hd]; exact hne
  · -- the last level
    have hlen : (wL b h A B d x ++ if d + 1 < h then [] else group c (un A B) p).length < cL := by
      refine lt_of_lt_of_le ?_ (hroom.2 hd)
      rw [if_neg hd]
      simp only [List.length_append, group_length]
      omega
    have hct := hi.ct
    have hcl := hi.cl
    have hiT := hi.idxT
    have hiL := hi.idxL
    have hne := hi.ne
    have hq := hi.q
    simp only [if_neg hd] at hct hcl hiT hiL hne hq hlen
    unfold emit
    rw [if_neg hd]
    cases hu : (A (p ++ [c]) || B (p ++ [c])) with
    | true =>
      obtain ⟨C', w1, w2⟩ := hcl.one hlen
      rw [if_pos rfl]
      refine ⟨{ s with
          pA := b * (cnt b A d + (x.filter A).length) + if A p then c + 1 else 0
          pB := b * (cnt b B d + (x.filter B).length) + if B p then c + 1 else 0
          Cl := C', ne := s.ne + 1, idxL := s.idxL + 1 }, a1, b1, ?_, ?_, ?_⟩
      · simp only [hiL, w1, Res.ok_bind]
      · refine ⟨hi.tmp, hi.split, hi.lt, hc, ?_, rfl, rfl, ?_, ?_, ?_, ?_, ?_⟩
        · simp only [if_neg hd]; exact hq
        · simpa only [if_neg hd] using hct
        · simp only [if_neg hd, group_succ, hU, hu, ← List.append_assoc]; exact w2
        · simp only [if_neg hd]; exact hiT
        · simp only [if_neg hd, group_succ, hiL, List.length_append, List.length_cons, List.length_nil]; omega
        · simp only [if_neg hd, group_succ, hU, hu, hne, ← List.append_assoc, List.count_append]; simp
      · exact ⟨rfl, rfl, rfl, rfl, rfl⟩
    | false =>
      rw [if_neg Bool.false_ne_true]
      refine ⟨_, a1, b1, rfl, ?_, rfl, ⟨rfl, rfl, rfl, rfl⟩⟩
      refine ⟨hi.tmp, hi.split, hi.lt, hc, ?_, rfl, rfl, ?_, ?_, ?_, ?_, ?_⟩
      · simp only [if_neg hd]; exact hq
      · simpa only [if_neg hd] using hct
      · simp only [if_neg hd, group_succ, hU, hu, ← List.append_assoc]; exact hcl.zero hlen
      · simp only [if_neg hd]; exact hiT
      · simp only [if_neg hd, group_succ, hiL, List.length_append, List.length_cons, List.length_nil]; omega
      · simp only [if_neg hd, group_succ, hU, hu, hne, ← List.append_assoc, List.count_append]; simp

theorem In.loop (hA : Enc b h A t) (hB : Enc b h B tB) {d : Nat} {x y : List (List Nat)} {p : List Nat}
    (hroom : Room b h A B cT cL d x) :
    ∀ (f : Nat) {s : US} {c : Nat}, In b h A B t cT cL s d x y p c → c + f = b →
    ∃ s', children h tB (tag A B d p) f s = .ok s' ∧ In b h A B t cT cL s' d x y p b ∧ s'.times = s.times ∧
      Keep s s' := by
  intro f
  induction f with
  | zero =>
    intro s c hi hc
    rw [show c = b by omega] at hi
    exact ⟨s, rfl, hi, rfl, Keep.refl s⟩
  | succ f ih =>
    intro s c hi hc
    obtain ⟨s1, s2, s', e1, e2, e3, e4, e5, e6⟩ := hi.step hA hB hroom (by omega)
    obtain ⟨s'', f1, f2, f3, f4⟩ := ih e4 (by omega)
    refine ⟨s'', ?_, f2, f3.trans e5, e6.trans f4⟩
    unfold children
    simp only [tag, e1, e2, e3, Res.ok_bind]
    exact f1

/-- One queue element. -/
theorem At.step (hA : Enc b h A t) (hB : Enc b h B tB) {s : US} {d : Nat} {x y : List (List Nat)} {p : List Nat}
    (hroom : Room b h A B cT cL d x) (ha : At b h A B t cT cL s d x (p :: y)) :
    ∃ qs s', s.Q = tag A B d p :: qs ∧
      children h tB (tag A B d p) b { s with Q := qs, times := s.times + 1 } = .ok s' ∧
      At b h A B t cT cL s' d (x ++ [p]) y ∧ s'.times = s.times + 1 ∧ Keep s s' := by
  have hi : In b h A B t cT cL { s with Q := y.map (tag A B d) ++ wQ b h A B d x, times := s.times + 1 }
      d x y p 0 := by
    refine ⟨ha.tmp, ha.split, ha.lt, Nat.zero_le _, ?_, ?_, ?_, ?_, ?_, ?_, ?_, ?_⟩
    · simp [kids]
    · simp [ha.pA]
    · simp [ha.pB]
    · simpa [group] using ha.ct
    · simpa [group] using ha.cl
    · simpa [group] using ha.idxT
    · simpa [group] using ha.idxL
    · simpa [group] using ha.ne
  obtain ⟨s', h1, h2, h3, h4⟩ := hi.loop hA hB hroom b (by omega)
  refine ⟨_, s', by rw [ha.q]; rfl, h1, ?_, h3, h4⟩
  have eT : wT b h A B d (x ++ [p]) = wT b h A B d x ++ if d + 1 < h then group b (un A B) p else [] := by
    unfold wT; split <;> simp [groups_append, groups_cons]
  have eL : wL b h A B d (x ++ [p]) = wL b h A B d x ++ if d + 1 < h then [] else group b (un A B) p := by
    unfold wL; split <;> simp [groups_append, groups_cons]
  refine ⟨h2.tmp, by rw [h2.split]; simp, h2.lt, ?_, ?_, ?_, ?_, ?_, ?_, ?_, ?_⟩
  · rw [h2.q]; unfold wQ; split <;> simp
  · rw [h2.pA, List.filter_append, List.length_append, List.filter_cons]
    split <;> simp; ring
  · rw [h2.pB, List.filter_append, List.length_append, List.filter_cons]
    split <;> simp; ring
  · rw [eT]; exact h2.ct
  · rw [eL]; exact h2.cl
  · rw [eT]; exact h2.idxT
  · rw [eL]; exact h2.idxL
  · rw [eL]; exact h2.ne

/-- The end of a level is the beginning of the next. -/
theorem At.next (hA : Enc b h A t) (hB : Enc b h B tB) {s : US} {d : Nat} {x : List (List Nat)}
    (ha : At b h A B t cT cL s d x []) (hd : d + 1 < h) :
    At b h A B t cT cL s (d + 1) [] (nodes b (un A B) (d + 1)) := by
  have hsA : ∀ q, A q = true → un A B q = true := by intro q hq; simp [un, hq]
  have hsB : ∀ q, B q = true → un A B q = true := by intro q hq; simp [un, hq]
  have hx : nodes b (un A B) d = x := by simpa using ha.split
  have eT : wT b h A B (d + 1) [] = wT b h A B d x := by
    unfold wT
    rw [if_pos hd]
    split
    · rw [upto_succ, bits, hx]; simp
    · rw [show h - 1 = d + 1 by omega, upto_succ, bits, hx]
  have eL : wL b h A B (d + 1) [] = wL b h A B d x := by
    unfold wL
    rw [if_pos hd]; split <;> simp
  refine ⟨ha.tmp, by simp, hd, ?_, ?_, ?_, ?_, ?_, ?_, ?_, ?_⟩
  · rw [ha.q]
    unfold wQ
    rw [if_pos hd]
    split <;> simp [nodes_succ, hx]
  · rw [ha.pA, ← hx, nodes_filter hsA hA.closed hA.root, cnt]; simp
  · rw [ha.pB, ← hx, nodes_filter hsB hB.closed hB.root, cnt]; simp
  · rw [eT]; exact ha.ct
  · rw [eL]; exact ha.cl
  · rw [eT]; exact ha.idxT
  · rw [eL]; exact ha.idxL
  · rw [eL]; exact ha.ne

/-- A state between two queue elements: some node is left, or the last level is complete.  `g` groups are done. -/
def Mid (b h : Nat) (A B : List Nat → Bool) (t : BT) (cT cL : Nat) (s : US) (g : Nat) : Prop :=
  ∃ d x y, At b h A B t cT cL s d x y ∧ (y = [] → d + 1 = h) ∧ g = cnt b (un A B) d + x.length

theorem At.norm (hA : Enc b h A t) (hB : Enc b h B tB) {s : US} : ∀ (f : Nat) {d : Nat} {x y : List (List Nat)},
    At b h A B t cT cL s d x y → h = d + f →
    Mid b h A B t cT cL s (cnt b (un A B) d + x.length) := by
  intro f
  induction f with
  | zero => intro d x y ha hd; have := ha.lt; omega
  | succ f ih =>
    intro d x y ha hd
    cases y with
    | cons p y => exact ⟨d, x, p :: y, ha, by simp, rfl⟩
    | nil =>
      by_cases h1 : d + 1 = h
      · exact ⟨d, x, [], ha, fun _ => h1, rfl⟩
      · have := ih (ha.next hA hB (by have := ha.lt; omega)) (by omega)
        have hx : nodes b (un A B) d = x := by simpa using ha.split
        rw [cnt, hx] at this
        exact this

theorem Mid.step (hA : Enc b h A t) (hB : Enc b h B tB) (hcT : (tBits b (un A B) h).length ≤ cT)
    (hcL : (lBits b (un A B) h).length ≤ cL) {s : US} {g : Nat} (hm : Mid b h A B t cT cL s g) :
    (s.Q = [] ∧ g = cnt b (un A B) h ∧
      ∃ x, At b h A B t cT cL s (h - 1) x [] ∧ nodes b (un A B) (h - 1) = x) ∨
    (g < cnt b (un A B) h ∧ ∃ q qs s', s.Q = q :: qs ∧
      children h tB q b { s with Q := qs, times := s.times + 1 } = .ok s' ∧
      Mid b h A B t cT cL s' (g + 1) ∧ s'.times = s.times + 1 ∧ Keep s s') := by
  obtain ⟨d, x, y, ha, hy, hg⟩ := hm
  cases y with
  | nil =>
    left
    have hd := hy rfl
    have hx : nodes b (un A B) d = x := by simpa using ha.split
    have h1 : h - 1 = d := by omega
    refine ⟨?_, ?_, x, by rw [h1]; exact ha, by rw [h1]; exact hx⟩
    · rw [ha.q, wQ, if_neg (by omega)]; rfl
    · rw [hg, ← hd, cnt, hx]
  | cons p y =>
    right
    obtain ⟨qs, s', h1, h2, h3, h4, h5⟩ := ha.step hA hB (room_of hcT hcL ha.lt ha.split)
    constructor
    · have hmono : ∀ j, cnt b (un A B) (d + 1) ≤ cnt b (un A B) (d + 1 + j) := by
        intro j
        induction j with
        | zero => exact le_refl _
        | succ j ih => exact le_trans ih (Nat.le_add_right _ _)
      have := hmono (h - (d + 1))
      rw [show d + 1 + (h - (d + 1)) = h by have := ha.lt; omega] at this
      rw [hg]
      refine lt_of_lt_of_le ?_ this
      rw [cnt, ha.split, List.length_append, List.length_cons]; omega
    · refine ⟨_, qs, s', h1, h2, ?_, h4, h5⟩
      have := h3.norm hA hB (h - d) (by have := h3.lt; omega)
      rw [List.length_append, ← Nat.add_assoc] at this
      rw [hg]; exact this

/-- The loop over the queue with budget `f`. -/
theorem drain_spec (hA : Enc b h A t) (hB : Enc b h B tB) (hcT : (tBits b (un A B) h).length ≤ cT)
    (hcL : (lBits b (un A B) h).length ≤ cL) : ∀ (f : Nat) {s : US} {g : Nat}, Mid b h A B t cT cL s g →
    ∃ s' g', drain b h tB f s = .ok s' ∧ Mid b h A B t cT cL s' g' ∧ Keep s s' ∧
      g' + s.times = g + s'.times ∧
      ((s'.Q = [] ∧ g' = cnt b (un A B) h ∧ s'.times ≤ s.times + f) ∨
       (s'.Q ≠ [] ∧ s'.times = s.times + f ∧ g' < cnt b (un A B) h)) := by
  intro f
  induction f with
  | zero =>
    intro s g hm
    refine ⟨s, g, rfl, hm, Keep.refl s, rfl, ?_⟩
    rcases hm.step hA hB hcT hcL with ⟨h1, h2, _⟩ | ⟨h0, q, qs, s', h1, _⟩
    · exact Or.inl ⟨h1, h2, le_refl _⟩
    · exact Or.inr ⟨by rw [h1]; simp, rfl, h0⟩
  | succ f ih =>
    intro s g hm
    rcases hm.step hA hB hcT hcL with ⟨h1, h2, _⟩ | ⟨h0, q, qs, s', h1, h2, h3, h4, h5⟩
    · refine ⟨s, g, by unfold drain; rw [h1], hm, Keep.refl s, rfl, Or.inl ⟨h1, h2, by omega⟩⟩
    · obtain ⟨s'', g', e1, e2, e3, e4, e5⟩ := ih h3
      refine ⟨s'', g', ?_, e2, h5.trans e3, by omega, ?_⟩
      · unfold drain; rw [h1]; simp only [h2, Res.ok_bind, e1]
      · rcases e5 with ⟨e5, e6, e7⟩ | ⟨e5, e6, e7⟩
        · exact Or.inl ⟨e5, e6, by omega⟩
        · exact Or.inr ⟨e5, by omega, e7⟩

end US
end DK2
