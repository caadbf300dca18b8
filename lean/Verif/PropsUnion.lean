import Verif.UnionProofs2
/-!
# Property theorem: the incremental union (C40)
-/

namespace DK2
open Bits

/-- Calls of `unionOperation()`, one per element of the list, each with its own budget (`iteration_size`). -/
def US.calls (b : Nat) (H : Nat → Nat) : List Nat → List (Option BT) × US → Res (List (Option BT) × US)
  | [], r => .ok r
  | c :: cs, r => do
    let r' ← US.unionOp b H (r.1.length + 1) r.1 { r.2 with iter := c }
    US.calls b H cs r'

/-- The edges of the levels `0..m` and the new edges. -/
def unionEdges (F : List Edge) (es : List (Option (List Edge))) (m : Nat) : List Edge :=
  F ++ ((es.take (m + 1)).map (fun o => o.getD [])).flatten

theorem US.acc_eq {F : List Edge} {es : List (Option (List Edge))} (i : Nat) :
    US.acc F es i = F ++ ((es.take i).map (fun o => o.getD [])).flatten := by
  induction i with
  | zero => simp [US.acc]
  | succ i ih =>
    rw [US.acc, List.take_add_one]
    split
    · rename_i E hE
      rw [hE, ih]; simp
    · rename_i hno
      rw [ih]
      cases h1 : es[i]? with
      | none => simp
      | some o =>
        cases o with
        | none => simp
        | some E => exact absurd h1 (hno E)

/-- The number of node groups that the union visits. -/
def unionWork (k h : Nat) (F : List Edge) (es : List (Option (List Edge))) (m : Nat) : Nat :=
  US.work k h F es (m + 1)

theorem US.create_spec {k h n : Nat} {F : List Edge} {es : List (Option (List Edge))} {m : Nat}
    (hi : US.Base k h n F es m) :
    ∃ ks0 s0, US.create (fun E n => BT.encode k h n E) F n (US.stored k h n es) m = .ok (ks0, s0) ∧ 0 < s0.iter ∧
      ks0.length = es.length ∧
      ((s0.finish = true ∧ ks0 = US.stored k h n (US.merged F es m) ∧ unionWork k h F es m = 0) ∨
       (US.Pend k h n F es m ks0 s0 0 ∧ s0.times = 0 ∧ 0 < unionWork k h F es m)) := by
  have hlen : F.length ≠ 0 := fun h => hi.hF (List.length_eq_zero_iff.1 h)
  unfold US.create
  rw [if_neg hlen]
  obtain ⟨c1, c2, c3, c4⟩ := US.scan_spec (US.stored k h n es) (m + 1) 0
  have hiter : 0 < US.iterSize (US.totalIter (US.stored k h n es) m (BT.encode k h n F)) F.length := by
    have ht : 0 < US.totalIter (US.stored k h n es) m (BT.encode k h n F) := by
      unfold US.totalIter; dsimp only; split <;> omega
    unfold US.iterSize
    split
    · rename_i h1
      have := Nat.div_pos (Nat.le_of_dvd ht (Nat.dvd_of_mod_eq_zero h1)) (show 0 < F.length by omega)
      omega
    · exact Nat.succ_pos _
  generalize hj : US.scan (US.stored k h n es) (m + 1) 0 = j at c1 c2 c3 c4
  have hno : ∀ l, 0 ≤ l → l < 0 + j → ∀ E, es[l]? ≠ some (some E) := by
    intro l h1 h2 E hE
    refine c3 l h1 (by omega) (BT.encode k h n E) ?_
    rw [US.stored_get, hE]; rfl
  obtain ⟨k1, k2, k3⟩ := US.skip (k := k) (h := h) (F := F) j hno (by have := hi.hm; omega)
  rw [Nat.zero_add] at k1 k2 k3
  have hr0 : US.rest es 0 = es := by simp [US.rest]
  dsimp only
  by_cases hjm : j ≤ m
  · rw [if_pos hjm]
    obtain ⟨t, ht⟩ := c4 (by omega)
    rw [US.stored_get] at ht
    obtain ⟨E', hE'⟩ : ∃ E', es[j]? = some (some E') := by
      cases h1 : es[j]? with
      | none => rw [h1] at ht; cases ht
      | some o =>
        cases o with
        | none => rw [h1] at ht; cases ht
        | some E' => exact ⟨E', rfl⟩
    refine ⟨_, _, rfl, hiter, by simp [US.stored], Or.inr ⟨⟨hjm, rfl, rfl, ?_, E', 0, hE', ?_,
      Or.inl ⟨⟨rfl, rfl, rfl, rfl, rfl, rfl⟩, ?_, rfl⟩⟩, rfl, ?_⟩⟩
    · show US.stored k h n es = US.stored k h n (US.rest es j)
      rw [← k1, hr0]
    · show 0 = US.work k h F es j + 0
      rw [← k3]; rfl
    · show BT.encode k h n F = BT.encode k h n (US.acc F es j)
      rw [← k2]; rfl
    · refine lt_of_lt_of_le ?_ (US.work_mono (show j + 1 ≤ m + 1 by omega))
      rw [US.work_succ_some hE']
      have := US.cnt_pos (b := k * k) (U := below k h (US.acc F es (j + 1))) hi.hh
      omega
  · rw [if_neg hjm]
    have hjm' : j = m + 1 := by omega
    have hw : wr (US.stored k h n es) m (some (BT.encode k h n F)) = .ok (US.stored k h n (US.merged F es m)) := by
      rw [wr_of (by rw [US.stored, List.length_map]; exact hi.hm)]
      congr 1
      have := US.merged_eq (F := F) (es := es) (m := m)
      rw [← this, ← US.stored_set, ← hjm', ← k1, hr0, ← k2]; rfl
    rw [hw, Res.ok_bind]
    refine ⟨_, _, rfl, hiter, ?_, Or.inl ⟨rfl, rfl, ?_⟩⟩
    · have := hi.hm
      simp only [US.stored, US.merged, List.length_map, List.length_append, List.length_replicate,
        List.length_cons, List.length_drop]
      omega
    · show US.work k h F es (m + 1) = 0
      rw [← hjm', ← k3]; rfl

theorem US.calls_spec {k h n : Nat} {F : List Edge} {es : List (Option (List Edge))} {m : Nat} {H : Nat → Nat}
    (hi : US.Input k h n F es m) (hH : H n = h) : ∀ (cs : List Nat) {ks : List (Option BT)} {s : US} {D : Nat},
    (∀ c ∈ cs, 0 < c) → ks.length = es.length →
    ((s.finish = true ∧ ks = US.stored k h n (US.merged F es m) ∧ unionWork k h F es m ≤ D) ∨
       (US.Pend k h n F es m ks s D ∧ s.times = 0 ∧ D < unionWork k h F es m)) →
    ∃ ks' s', US.calls (k * k) H cs (ks, s) = .ok (ks', s') ∧
      ((s'.finish = true ∧ ks' = US.stored k h n (US.merged F es m) ∧ unionWork k h F es m ≤ D + cs.sum) ∨
       (s'.finish = false ∧ D + cs.sum < unionWork k h F es m)) := by
  intro cs
  induction cs with
  | nil =>
    intro ks s D _ _ hst
    refine ⟨ks, s, rfl, ?_⟩
    rcases hst with h1 | h1
    · exact Or.inl h1
    · exact Or.inr ⟨h1.1.fin, h1.2.2⟩
  | cons c cs ih =>
    intro ks s D hc hlen hst
    have hc0 := hc c (by simp)
    unfold US.calls
    rcases hst with ⟨h1, h2, h3⟩ | ⟨h1, h2, h3⟩
    · have : US.unionOp (k * k) H (ks.length + 1) ks { s with iter := c } = .ok (ks, { s with iter := c }) := by
        unfold US.unionOp
        simp only [h1, if_true]
      simp only [this, Res.ok_bind]
      obtain ⟨ks', s', e1, e2⟩ := ih (s := { s with iter := c }) (D := D + c)
        (fun c' hc' => hc c' (List.mem_cons_of_mem _ hc')) hlen (Or.inl ⟨h1, h2, by omega⟩)
      refine ⟨ks', s', e1, ?_⟩
      rw [List.sum_cons]
      rcases e2 with ⟨a, b, d⟩ | ⟨a, b⟩
      · exact Or.inl ⟨a, b, by omega⟩
      · omega
    · have hp : US.Pend k h n F es m ks { s with iter := c } D := by
        obtain ⟨a1, a2, a3, a4, E, g, a5, a6, a7⟩ := h1
        refine ⟨a1, a2, a3, a4, E, g, a5, a6, ?_⟩
        rcases a7 with ⟨b1, b2, b3⟩ | ⟨⟨d, x, y, ha, hy, hg⟩, b2, b3⟩
        · exact Or.inl ⟨⟨b1.q, b1.pA, b1.pB, b1.idxL, b1.idxT, b1.ne⟩, b2, b3⟩
        · exact Or.inr ⟨⟨d, x, y, ⟨ha.tmp, ha.split, ha.lt, ha.q, ha.pA, ha.pB, ha.ct, ha.cl, ha.idxT, ha.idxL,
            ha.ne⟩, hy, hg⟩, b2, b3⟩
      obtain ⟨ks1, s1, e1, e2, e3⟩ := hp.unionOp (H := H) hi hH (ks.length + 1) (by simpa [h2] using hc0)
        (by have := hi.hm; omega)
      simp only [e1, Res.ok_bind]
      simp only [h2, Nat.sub_zero] at e3
      have hlen1 : ks1.length = es.length := by
        have hm := hi.hm
        rcases e3 with ⟨_, a, _⟩ | ⟨a, _⟩
        · rw [a]
          simp only [US.stored, US.merged, List.length_map, List.length_append, List.length_replicate,
            List.length_cons, List.length_drop]
          omega
        · rw [a.ks_eq, US.stored, List.length_map, US.rest_length (by have := a.i_le; omega)]
      obtain ⟨ks', s', f1, f2⟩ := ih (s := s1) (D := D + c)
        (fun c' hc' => hc c' (List.mem_cons_of_mem _ hc')) hlen1 e3
      refine ⟨ks', s', f1, ?_⟩
      rw [List.sum_cons, ← Nat.add_assoc]
      exact f2

/-- What the union of new edges `F` with the levels `0..m` has to leave behind: levels below `m` empty, levels
above `m` untouched, and at level `m` a tree that is the encoding of an edge list `L` holding exactly the edges of
`F` and of those levels, answers `adj` accordingly and counts each edge once. -/
structure UnionDone (k h n : Nat) (F : List Edge) (es : List (Option (List Edge))) (m : Nat)
    (ks : List (Option BT)) : Prop where
  len : ks.length = es.length
  low : ∀ j, j < m → ks[j]? = some none
  high : ∀ j, m < j → ks[j]? = (es[j]?).map (Option.map (BT.encode k h n))
  tree : ∃ t L, ks[m]? = some (some t) ∧ t = BT.encode k h n L ∧
    (∀ e, e ∈ L ↔ (e ∈ F ∨ ∃ j E, j ≤ m ∧ es[j]? = some (some E) ∧ e ∈ E)) ∧
    (∀ e, InRange n e → t.adj k e = some (decide (e ∈ L))) ∧
    (∃ D : List Edge, D.Nodup ∧ (∀ e, e ∈ D ↔ e ∈ L) ∧ t.ne = D.length)

theorem unionDone_of {k h n : Nat} {F : List Edge} {es : List (Option (List Edge))} {m : Nat}
    (hi : US.Base k h n F es m) : UnionDone k h n F es m (US.stored k h n (US.merged F es m)) := by
  have hm := hi.hm
  constructor
  · simp only [US.stored, US.merged, List.length_map, List.length_append, List.length_replicate,
      List.length_cons, List.length_drop]
    omega
  · intro j hj
    rw [US.stored_get, US.merged, List.getElem?_append_left (by simpa using hj)]
    simp [hj]
  · intro j hj
    rw [US.stored_get, US.merged, List.getElem?_append_right (by simp; omega), List.length_replicate]
    obtain ⟨l, rfl⟩ : ∃ l, j = m + 1 + l := ⟨j - (m + 1), by omega⟩
    rw [show m + 1 + l - m = l + 1 by omega, List.getElem?_cons_succ, List.getElem?_drop]
  · refine ⟨_, US.acc F es (m + 1), ?_, rfl, ?_, ?_, ?_⟩
    · rw [US.stored_get, US.merged, List.getElem?_append_right (by simp)]
      simp
    · intro e
      rw [US.acc_eq, List.mem_append]
      refine or_congr_right ?_
      simp only [List.mem_flatten, List.mem_map]
      constructor
      · rintro ⟨l, ⟨o, ho, rfl⟩, he⟩
        cases o with
        | none => cases he
        | some E =>
          obtain ⟨j, hj⟩ := List.mem_iff_getElem?.1 ho
          rw [List.getElem?_take] at hj
          split at hj
          · exact ⟨j, E, by omega, hj, he⟩
          · cases hj
      · rintro ⟨j, E, hj, hE, he⟩
        refine ⟨E, ⟨some E, List.mem_iff_getElem?.2 ⟨j, ?_⟩, rfl⟩, he⟩
        rw [List.getElem?_take, if_pos (by omega), hE]
    · intro e he
      exact BT.encode_adj (by have := hi.hk; omega) hi.hh hi.hn (hi.acc_range _) he
    · exact ⟨(US.acc F es (m + 1)).dedup, List.nodup_dedup _, fun e => List.mem_dedup, rfl⟩

/-- The program's estimate of the number of bits of the first `j` levels of a tree: `k² + k⁴ + … + k^(2j)` in 32-bit
arithmetic (`uint`). -/
def sizeEst (k j : Nat) : Nat := ((List.range j).map (fun i => (k * k) ^ (i + 1))).sum % 2 ^ 32

theorem sizeEst_eq (k j : Nat) : sizeEst k j = US.geo (k * k) j % 2 ^ 32 := by
  unfold sizeEst
  congr 1
  induction j with
  | zero => rfl
  | succ j ih => rw [List.range_succ, List.map_append, List.sum_append, ih]; simp [US.geo]

/-- C40: for every arity `k ≥ 2`, height and vertex count, every non-empty list `F` of new edges and every levels
`es` holding non-empty trees, the constructor and any number of calls of `unionOperation` with any positive budgets
return, without assertion failure or out-of-bounds access; the union is finished exactly when the budgets add up
to at least `unionWork` node groups, and then the levels are as `UnionDone` says.

The last two hypotheses say that neither bit vector of the result is larger than the program's 32-bit estimate; without
them the program writes out of bounds (`C40_exact`). -/
theorem C40 {k h n : Nat} (hk : 2 ≤ k) (hh : 1 ≤ h) (hn : n ≤ k ^ h) {H : Nat → Nat} (hH : H n = h)
    {F : List Edge} (hF : F ≠ []) (hFr : ∀ e ∈ F, InRange n e) {es : List (Option (List Edge))}
    (hE : ∀ E, some E ∈ es → E ≠ [] ∧ ∀ e ∈ E, InRange n e) {m : Nat} (hm : m < es.length)
    (hT : (BT.encode k h n (unionEdges F es m)).T.length ≤ sizeEst k h)
    (hL : (BT.encode k h n (unionEdges F es m)).L.length ≤ sizeEst k (h + 1)) :
    ∃ ks0 s0, US.create (fun E n => BT.encode k h n E) F n (es.map (Option.map (BT.encode k h n))) m =
        .ok (ks0, s0) ∧ 0 < s0.iter ∧
      ∀ cs : List Nat, (∀ c ∈ cs, 0 < c) → ∃ ks' s', US.calls (k * k) H cs (ks0, s0) = .ok (ks', s') ∧
        (s'.finish = true ↔ unionWork k h F es m ≤ cs.sum) ∧
        (s'.finish = true → UnionDone k h n F es m ks') := by
  have hi : US.Input k h n F es m := by
    refine ⟨⟨hk, hh, hn, hF, hFr, hE, hm⟩, ?_, ?_⟩
    · rw [US.acc_eq, ← sizeEst_eq]; exact hT
    · rw [US.acc_eq, ← sizeEst_eq]; exact hL
  obtain ⟨ks0, s0, e1, e2, e3, e4⟩ := US.create_spec hi.toBase
  refine ⟨ks0, s0, e1, e2, ?_⟩
  intro cs hcs
  have e4' : (s0.finish = true ∧ ks0 = US.stored k h n (US.merged F es m) ∧ unionWork k h F es m ≤ 0) ∨
       (US.Pend k h n F es m ks0 s0 0 ∧ s0.times = 0 ∧ 0 < unionWork k h F es m) := by
    rcases e4 with ⟨a, b, c⟩ | a
    · exact Or.inl ⟨a, b, by omega⟩
    · exact Or.inr a
  obtain ⟨ks', s', f1, f2⟩ := US.calls_spec hi hH cs hcs e3 e4'
  rw [Nat.zero_add] at f2
  refine ⟨ks', s', f1, ?_, ?_⟩
  · rcases f2 with ⟨a, b, c⟩ | ⟨a, c⟩
    · exact ⟨fun _ => c, fun _ => a⟩
    · rw [a]; constructor
      · intro h; cases h
      · intro h; omega
  · intro hf
    rcases f2 with ⟨a, b, c⟩ | ⟨a, c⟩
    · rw [b]; exact unionDone_of hi.toBase
    · rw [a] at hf; cases hf

/-- Non-vacuity: three levels of a graph on 4 vertices (`k = 2`, height 2), new edge `(0,1)`, target level 2.  The
union visits 6 groups. -/
def wUnion : List (Option (List Edge)) := [some [(2, 3), (0, 1)], none, some [(3, 3), (1, 0)]]

example : ∃ ks0 s0, US.create (fun E n => BT.encode 2 2 n E) [(0, 1)] 4
      (wUnion.map (Option.map (BT.encode 2 2 4))) 2 = .ok (ks0, s0) ∧
    (∃ ks' s', US.calls 4 (fun _ => 2) [1, 1, 1, 1, 1] (ks0, s0) = .ok (ks', s') ∧ s'.finish = false) ∧
    (∃ ks' s', US.calls 4 (fun _ => 2) [1, 3, 1, 1] (ks0, s0) = .ok (ks', s') ∧ s'.finish = true ∧
      UnionDone 2 2 4 [(0, 1)] wUnion 2 ks') := by
  obtain ⟨ks0, s0, h1, _, h2⟩ := C40 (k := 2) (h := 2) (n := 4) (H := fun _ => 2) (F := [(0, 1)]) (es := wUnion)
    (m := 2) (by norm_num) (by norm_num) (by norm_num) rfl (by simp) (by decide)
    (by intro E hE; simp only [wUnion, List.mem_cons] at hE
        rcases hE with h | h | h | h
        · cases h; exact ⟨by simp, by decide⟩
        · cases h
        · cases h; exact ⟨by simp, by decide⟩
        · cases h) (by decide) (by decide) (by decide)
  have hw : unionWork 2 2 [(0, 1)] wUnion 2 = 6 := by decide
  rw [hw] at h2
  refine ⟨ks0, s0, h1, ?_, ?_⟩
  · obtain ⟨ks', s', a, b, _⟩ := h2 [1, 1, 1, 1, 1] (by decide)
    refine ⟨ks', s', a, ?_⟩
    rw [← Bool.not_eq_true, b]; decide
  · obtain ⟨ks', s', a, b, c⟩ := h2 [1, 3, 1, 1] (by decide)
    have := b.2 (by decide)
    exact ⟨ks', s', a, this, c this⟩

end DK2
