import Verif.PropsMunro
import Verif.Cost
/-!
# The work of one `add_edge` of `DKtree_delay_munro` (C77)

`DKtree_delay_munro` spreads a merge over the following insertions.  The functions below are those of `Union` and
`Munro` with two counters: the elements of the queue processed by `unionOperation` (each of them looks at `k*k`
positions of the result), and the bits of the trees copied or built by a flush.  Without the counters they are the
functions of the model (`addEdgeC_fst`).
-/

namespace DK2

namespace US

/-- `drain` (union_support.hpp:153-196) with the number of elements taken from the queue. -/
def drainC (b maxH : Nat) (B : BT) : Nat → US → Res (US × Nat)
  | 0, s => .ok (s, 0)
  | f + 1, s =>
    match s.Q with
    | [] => .ok (s, 0)
    | q :: qs => do
      let s' ← children maxH B q b { s with Q := qs, times := s.times + 1 }
      let r ← drainC b maxH B f s'
      .ok (r.1, r.2 + 1)

/-- `unionOperation()` (union_support.hpp:120-227) with the number of elements taken from the queue, those of its
recursive calls included. -/
def unionOpC (b : Nat) (H : Nat → Nat) : Nat → List (Option BT) → US → Res ((List (Option BT) × US) × Nat)
  | 0, _, _ => .diverge
  | f + 1, ks, s =>
    if s.finish then .ok ((ks, s), 0)
    else do
      let o ← rd ks s.ki
      let B ← use o
      let maxH := max s.tmp.h B.h
      let q ← s.front
      let z ← drainC b maxH B (s.iter - s.times) (begin' b maxH B q s)
      if z.1.Q = [] then do
        let r ← next H ks z.1
        if r.2.2 then do
          let y ← unionOpC b H f r.1 r.2.1
          .ok (y.1, y.2 + z.2)
        else .ok ((r.1, r.2.1), z.2)
      else .ok ((ks, { z.1 with times := 0, finish := false }), z.2)

theorem drainC_fst (b maxH : Nat) (B : BT) (f : Nat) : ∀ s : US,
    drain b maxH B f s = (drainC b maxH B f s >>= fun r => .ok r.1) := by
  induction f with
  | zero => intro s; rfl
  | succ f ih =>
    intro s
    unfold drain drainC
    cases s.Q with
    | nil => rfl
    | cons q qs =>
      simp only
      cases children maxH B q b { s with Q := qs, times := s.times + 1 } with
      | ok s' =>
        simp only [Res.ok_bind]
        rw [ih]
        cases drainC b maxH B f s' <;> rfl
      | _ => rfl

theorem unionOpC_fst (b : Nat) (H : Nat → Nat) (f : Nat) : ∀ (ks : List (Option BT)) (s : US),
    unionOp b H f ks s = (unionOpC b H f ks s >>= fun r => .ok r.1) := by
  induction f with
  | zero => intro ks s; rfl
  | succ f ih =>
    intro ks s
    unfold unionOp unionOpC
    split
    · rfl
    · cases rd ks s.ki with
      | ok o =>
        simp only [Res.ok_bind]
        cases use o with
        | ok B =>
          simp only [Res.ok_bind]
          cases s.front with
          | ok q =>
            simp only [Res.ok_bind]
            rw [drainC_fst]
            cases drainC b (max s.tmp.h B.h) B (s.iter - s.times) (begin' b (max s.tmp.h B.h) B q s) with
            | ok z =>
              simp only [Res.ok_bind]
              split
              · cases next H ks z.1 with
                | ok r =>
                  simp only [Res.ok_bind]
                  split
                  · rw [ih]
                    cases unionOpC b H f r.1 r.2.1 <;> rfl
                  · rfl
                | _ => rfl
              · rfl
            | _ => rfl
          | _ => rfl
        | _ => rfl
      | _ => rfl

theorem emit_iter {maxH l : Nat} {bA bB : Bool} {s s' : US} (h : emit maxH l bA bB s = .ok s') :
    s'.iter = s.iter ∧ s'.times = s.times := by
  unfold emit at h
  split at h <;> split at h
  · rw [Res.bind_eq_ok] at h; obtain ⟨c, _, h⟩ := h; cases h; exact ⟨rfl, rfl⟩
  · cases h; exact ⟨rfl, rfl⟩
  · rw [Res.bind_eq_ok] at h; obtain ⟨c, _, h⟩ := h; cases h; exact ⟨rfl, rfl⟩
  · cases h; exact ⟨rfl, rfl⟩

theorem children_iter {maxH : Nat} {B : BT} {q : Nat × Bool × Bool} (c : Nat) : ∀ {s s' : US},
    children maxH B q c s = .ok s' → s'.iter = s.iter ∧ s'.times = s.times := by
  induction c with
  | zero => intro s s' h; cases h; exact ⟨rfl, rfl⟩
  | succ c ih =>
    intro s s' h
    unfold children at h
    simp only [Res.bind_eq_ok] at h
    obtain ⟨a, _, b, _, s1, h1, h⟩ := h
    have e1 := emit_iter h1
    have e2 := ih h
    exact ⟨e2.1.trans e1.1, e2.2.trans e1.2⟩

theorem drainC_iter {b maxH : Nat} {B : BT} (f : Nat) : ∀ {s : US} {r : US × Nat}, drainC b maxH B f s = .ok r →
    r.2 ≤ f ∧ r.1.iter = s.iter ∧ r.1.times = s.times + r.2 := by
  induction f with
  | zero => intro s r h; cases h; exact ⟨le_refl _, rfl, rfl⟩
  | succ f ih =>
    intro s r h
    unfold drainC at h
    cases hQ : s.Q with
    | nil => rw [hQ] at h; cases h; exact ⟨Nat.zero_le _, rfl, rfl⟩
    | cons q qs =>
      rw [hQ] at h
      simp only [Res.bind_eq_ok] at h
      obtain ⟨s', h1, r', h2, h⟩ := h
      cases h
      have e1 := children_iter _ h1
      have e2 := ih h2
      refine ⟨by simp only; omega, by rw [e2.2.1, e1.1], ?_⟩
      rw [e2.2.2, e1.2]
      simp only
      omega

theorem result_iter {H : Nat → Nat} {s s' : US} (h : result H s = .ok s') : s'.iter = s.iter ∧ s'.times = s.times := by
  unfold result at h
  split at h
  · cases h
  · split at h
    · cases h
    · cases h; exact ⟨rfl, rfl⟩

theorem next_iter {H : Nat → Nat} {ks : List (Option BT)} {s : US} {r : List (Option BT) × US × Bool}
    (h : next H ks s = .ok r) : r.2.1.iter = s.iter ∧ (r.2.2 = true → r.2.1.times = s.times) := by
  unfold next at h
  simp only [Res.bind_eq_ok] at h
  obtain ⟨ks1, _, s1, h1, h⟩ := h
  have e1 := result_iter h1
  split at h
  · rw [Res.bind_eq_ok] at h
    obtain ⟨ks2, _, h⟩ := h
    cases h
    exact ⟨e1.1, by intro hh; cases hh⟩
  · split at h
    · cases h; exact ⟨e1.1, by intro hh; cases hh⟩
    · cases h; exact ⟨e1.1, fun _ => e1.2⟩

/-- One call of `unionOperation`, its recursive calls included, takes at most `iteration_size - times` elements
from the queue, and never changes `iteration_size`. -/
theorem unionOpC_le {b : Nat} {H : Nat → Nat} (f : Nat) : ∀ {ks : List (Option BT)} {s : US}
    {r : (List (Option BT) × US) × Nat}, unionOpC b H f ks s = .ok r →
    r.2 ≤ s.iter - s.times ∧ r.1.2.iter = s.iter ∧ (s.finish = true → r.2 = 0) := by
  induction f with
  | zero => intro ks s r h; cases h
  | succ f ih =>
    intro ks s r h
    unfold unionOpC at h
    split at h
    · cases h; exact ⟨Nat.zero_le _, rfl, fun _ => rfl⟩
    · rename_i hfin
      simp only [Res.bind_eq_ok] at h
      obtain ⟨o, _, B, _, q, _, z, hz, h⟩ := h
      have hb : (begin' b (max s.tmp.h B.h) B q s).iter = s.iter ∧ (begin' b (max s.tmp.h B.h) B q s).times = s.times := by
        unfold begin' initC
        split <;> exact ⟨rfl, rfl⟩
      have e1 := drainC_iter _ hz
      rw [hb.1, hb.2] at e1
      have hf : s.finish = true → r.2 = 0 := fun hh => absurd hh hfin
      split at h
      · rw [Res.bind_eq_ok] at h
        obtain ⟨y, hy, h⟩ := h
        have e2 := next_iter hy
        split at h
        · rename_i hrec
          rw [Res.bind_eq_ok] at h
          obtain ⟨w, hw, h⟩ := h
          cases h
          have e3 := ih hw
          refine ⟨?_, by rw [e3.2.1, e2.1, e1.2.1], hf⟩
          have e4 := e3.1
          rw [e2.1, e2.2 hrec, e1.2.1, e1.2.2] at e4
          simp only
          omega
        · cases h
          exact ⟨e1.1, by simp only; rw [e2.1, e1.2.1], hf⟩
      · cases h
        exact ⟨e1.1, e1.2.1, hf⟩

end US

namespace DKM

/-- The bits of the trees of all levels. -/
def bits (ks : List (Option BT)) : Nat := (ks.map (fun o => o.elim 0 US.getOnes)).sum

/-- `unionStep` with the number of elements taken from the queue. -/
def unionStepC (P : MPar) (d : DKM) : Res (DKM × Nat) := do
  let r ← US.unionOpC (P.k * P.k) P.H (d.ks.length + 1) d.ks d.us
  .ok ({ d with ks := r.1.1, us := r.1.2 }, r.2)

/-- `flush` (DKtree_delay_.hpp:107-143) with the number of elements taken from the queue, and the number of bits of
the trees copied to `k_collection_copy` and of the tree built. -/
def flushC (P : MPar) (d : DKM) (e : Edge) : Res (DKM × Nat × Nat) :=
  match selectLevel P.S (max d.nv d.nTotal) d.ks 0 (P.S.maxsz (max d.nv d.nTotal) 0) with
  | none => .throws
  | some i => do
    let conv ← d.c0.converted
    let c ← d.c0.clean
    let r ← US.create (fun E n => BT.encode P.k (P.H n) n E) (conv ++ [e]) d.nv d.ks i
    let z ← unionStepC P ⟨max i d.maxR, d.nv, d.nTotal, c, r.1, d.ks, e, r.2⟩
    .ok ({ z.1 with nTotal := z.1.nTotal + 1 }, z.2,
      bits d.ks + US.getOnes (BT.encode P.k (P.H d.nv) d.nv (conv ++ [e])))

/-- `add_edge` (DKtree_delay_.hpp:93-144) with the number of elements taken from the queue and the number of bits
copied or built. -/
def addEdgeC (P : MPar) (d : DKM) (e : Edge) : Res (DKM × Nat × Nat) := do
  let z ← unionStepC P d
  let b ← contains P z.1 e
  if b then .ok (z.1, z.2, 0)
  else if z.1.c0.size < P.S.maxsz (max z.1.nv z.1.nTotal) 0 then do
    let c ← z.1.c0.insert P.S e z.1.nTotal
    .ok ({ z.1 with c0 := c, nTotal := z.1.nTotal + 1 }, z.2, 0)
  else if z.1.us.finish || P.nd then do
    let y ← flushC P z.1 e
    .ok (y.1, z.2 + y.2.1, y.2.2)
  else .abort

theorem unionStepC_fst (P : MPar) (d : DKM) : d.unionStep P = (d.unionStepC P >>= fun r => .ok r.1) := by
  unfold unionStep unionStepC
  rw [US.unionOpC_fst]
  cases US.unionOpC (P.k * P.k) P.H (d.ks.length + 1) d.ks d.us <;> rfl

theorem flushC_fst (P : MPar) (d : DKM) (e : Edge) : d.flush P e = (d.flushC P e >>= fun r => .ok r.1) := by
  unfold flush flushC
  cases selectLevel P.S (max d.nv d.nTotal) d.ks 0 (P.S.maxsz (max d.nv d.nTotal) 0) with
  | none => rfl
  | some i =>
    simp only
    cases d.c0.converted with
    | ok conv =>
      simp only [Res.ok_bind]
      cases d.c0.clean with
      | ok c =>
        simp only [Res.ok_bind]
        cases US.create (fun E n => BT.encode P.k (P.H n) n E) (conv ++ [e]) d.nv d.ks i with
        | ok r =>
          simp only [Res.ok_bind]
          rw [unionStepC_fst]
          cases unionStepC P ⟨max i d.maxR, d.nv, d.nTotal, c, r.1, d.ks, e, r.2⟩ <;> rfl
        | _ => rfl
      | _ => rfl
    | _ => rfl

/-- The counted `add_edge` is `add_edge`. -/
theorem addEdgeC_fst (P : MPar) (d : DKM) (e : Edge) : d.addEdge P e = (d.addEdgeC P e >>= fun r => .ok r.1) := by
  unfold addEdge addEdgeC
  rw [unionStepC_fst]
  cases unionStepC P d with
  | ok z =>
    simp only [Res.ok_bind]
    cases contains P z.1 e with
    | ok b =>
      simp only [Res.ok_bind]
      split
      · rfl
      · split
        · cases z.1.c0.insert P.S e z.1.nTotal <;> rfl
        · split
          · rw [flushC_fst]
            cases flushC P z.1 e <;> rfl
          · rfl
    | _ => rfl
  | _ => rfl

/-! ### bounds -/

theorem unionStepC_le {P : MPar} {d : DKM} {r : DKM × Nat} (h : d.unionStepC P = .ok r) :
    r.2 ≤ d.us.iter ∧ r.1.us.iter = d.us.iter ∧ (d.us.finish = true → r.2 = 0) ∧ r.1.nTotal = d.nTotal := by
  unfold unionStepC at h
  rw [Res.bind_eq_ok] at h
  obtain ⟨y, hy, h⟩ := h
  cases h
  have e := US.unionOpC_le _ hy
  exact ⟨le_trans e.1 (Nat.sub_le _ _), e.2.1, e.2.2, rfl⟩

theorem grp_le {k h n : Nat} {es : List (Option (List Edge))} (hE : ∀ E, some E ∈ es → E ≠ [] ∧ ∀ e ∈ E, InRange n e) :
    grp k h es ≤ h * wt es := by
  induction es with
  | nil => simp [grp]
  | cons o es ih =>
    have ih' := ih (fun E hm => hE E (List.mem_cons_of_mem _ hm))
    simp only [grp, wt, List.map_cons, List.sum_cons, Nat.mul_add] at ih' ⊢
    refine Nat.add_le_add ?_ ih'
    cases o with
    | none => simp
    | some E => exact cnt_le_edges (hE E (by simp)).1 h

theorem dedup_le (F : List Edge) : F.dedup.length ≤ F.length := (List.dedup_sublist F).length_le

theorem totalIter_le {k h n : Nat} (hh : 1 ≤ h) (hk : 0 < k) {F : List Edge} {es : List (Option (List Edge))}
    (hF : F ≠ []) (hl : Lv n es) (m : Nat) :
    US.totalIter (US.stored k h n es) m (BT.encode k h n F) ≤ k * k * (h * (F.length + wt es)) := by
  rw [totalIter_eq hh hk]
  refine Nat.mul_le_mul_left _ ?_
  rw [Nat.mul_add]
  refine Nat.add_le_add ?_ ?_
  · exact le_trans (cnt_le_edges hF h) (Nat.mul_le_mul_left _ (dedup_le F))
  · refine le_trans (grp_le (n := n) (fun E hm => hl.ne E (List.mem_of_mem_take hm))) ?_
    have := wt_split es (m + 1)
    exact Nat.mul_le_mul_left _ (by omega)

theorem bits_stored {k h n : Nat} (hh : 1 ≤ h) {es : List (Option (List Edge))} (hl : Lv n es) :
    bits (US.stored k h n es) ≤ k * k * (h * wt es) := by
  have : ∀ ls : List (Option (List Edge)), bits (US.stored k h n ls) = k * k * grp k h ls := by
    intro ls
    induction ls with
    | nil => simp [US.stored, grp, bits]
    | cons o ls ih =>
      simp only [US.stored, grp, bits, List.map_cons, List.sum_cons, Nat.mul_add] at ih ⊢
      rw [ih]
      congr 1
      cases o with
      | none => simp
      | some E => simp [getOnes_encode hh]
  rw [this]
  exact Nat.mul_le_mul_left _ (grp_le (n := n) hl.ne)

/-- The bound on the share of a merge one insertion performs, for `m` edges or vertices. -/
noncomputable def share (P : MPar) (n m : Nat) : ℝ := (P.k : ℝ) ^ 2 * P.H n * Real.logb 2 m ^ 2 + 1

theorem share_mono (P : MPar) (n : Nat) {m m' : Nat} (h2 : 2 ≤ m) (h : m ≤ m') : share P n m ≤ share P n m' := by
  have h0 : (0 : ℝ) < m := by exact_mod_cast (by omega : 0 < m)
  have h1 : Real.logb 2 m ≤ Real.logb 2 m' :=
    Real.logb_le_logb_of_le (by norm_num) h0 (by exact_mod_cast h)
  have h3 := logb_pos h2
  unfold share
  have : Real.logb 2 m ^ 2 ≤ Real.logb 2 m' ^ 2 := pow_le_pow_left₀ (by linarith) h1 2
  have : (0 : ℝ) ≤ (P.k : ℝ) ^ 2 * P.H n := by positivity
  nlinarith

theorem real_cap {m c : Nat} (h2 : 2 ≤ m) (h : realSizing.maxsz m 0 ≤ c) :
    2 * (m : ℝ) < (c + 1) * Real.logb 2 m ^ 2 := by
  have h3 := logb_pos h2
  have e : realSizing.maxsz m 0 = ⌊(2 * m : ℝ) / (Real.logb 2 m) ^ (2 - ((0 : ℕ) : ℝ) * (1 / 4))⌋₊ := rfl
  rw [e, show (2 : ℝ) - ((0 : ℕ) : ℝ) * (1 / 4) = ((2 : ℕ) : ℝ) by norm_num, Real.rpow_natCast] at h
  have hp : (0 : ℝ) < Real.logb 2 m ^ 2 := by positivity
  have h4 := Nat.lt_floor_add_one ((2 * m : ℝ) / (Real.logb 2 m) ^ 2)
  have h5 : ((⌊(2 * m : ℝ) / (Real.logb 2 m) ^ 2⌋₊ : ℕ) : ℝ) ≤ c := by exact_mod_cast h
  rw [div_lt_iff₀ hp] at h4
  nlinarith

theorem iterSize_le {t c : Nat} (hc : 0 < c) : (US.iterSize t c : ℝ) * c ≤ t + c := by
  have : US.iterSize t c * c ≤ t + c := by
    unfold US.iterSize
    have h1 := Nat.div_add_mod t c
    have h2 : c * (t / c) ≤ t := Nat.mul_div_le t c
    rw [Nat.add_mul, Nat.mul_comm (t / c)]
    split
    · omega
    · omega
  exact_mod_cast this

theorem iter_share {P : MPar} {n M t c : Nat} (h2 : 2 ≤ M) (ht : t ≤ P.k * P.k * (P.H n * (M + 1)))
    (hc : realSizing.maxsz M 0 ≤ c) : (US.iterSize t (c + 1) : ℝ) ≤ share P n M := by
  have h1 := iterSize_le (t := t) (c := c + 1) (by omega)
  have h3 := real_cap h2 hc
  have h4 : (t : ℝ) ≤ (P.k : ℝ) ^ 2 * P.H n * (M + 1) := by
    have : (t : ℝ) ≤ ((P.k * P.k * (P.H n * (M + 1)) : ℕ) : ℝ) := by exact_mod_cast ht
    push_cast at this
    nlinarith
  have h5 : (M : ℝ) + 1 ≤ 2 * M := by
    have : (2 : ℝ) ≤ M := by exact_mod_cast h2
    linarith
  have hA : (0 : ℝ) ≤ (P.k : ℝ) ^ 2 * P.H n := by positivity
  have hpos : (0 : ℝ) < (c : ℝ) + 1 := by positivity
  push_cast at h1
  unfold share
  have h6 : (P.k : ℝ) ^ 2 * P.H n * (M + 1) ≤ (P.k : ℝ) ^ 2 * P.H n * ((c + 1) * Real.logb 2 M ^ 2) :=
    mul_le_mul_of_nonneg_left (by linarith) hA
  have h7 : (US.iterSize t (c + 1) : ℝ) * (c + 1) ≤
      ((P.k : ℝ) ^ 2 * P.H n * Real.logb 2 M ^ 2 + 1) * (c + 1) := by nlinarith
  exact le_of_mul_le_mul_right h7 hpos

theorem create_iter {build : List Edge → Nat → BT} {E : List Edge} {n : Nat} {ks : List (Option BT)} {i : Nat}
    {r : List (Option BT) × US} (h : US.create build E n ks i = .ok r) :
    r.2.iter = US.iterSize (US.totalIter ks i (build E n)) E.length := by
  unfold US.create at h
  split at h
  · cases h
  · simp only at h
    split at h
    · cases h; rfl
    · rw [Res.bind_eq_ok] at h
      obtain ⟨ks, _, hh⟩ := h
      cases hh; rfl

/-- What a flush costs. -/
theorem flushC_le {P : MPar} (hS : P.S = realSizing) {n N : Nat} (hc : Ctx P n N) {d : DKM}
    {es : List (Option (List Edge))} (hwf : d.c0.WF) (hnv : d.nv = n) (hlv : Lv n es)
    (hcnt : wt es + d.c0.live.length ≤ d.nTotal) (hks : d.ks = US.stored P.k (P.H n) n es)
    (hfull : ¬ d.c0.size < P.S.maxsz (max d.nv d.nTotal) 0) {e : Edge} {r : DKM × Nat × Nat}
    (h : d.flushC P e = .ok r) :
    (r.2.1 : ℝ) ≤ share P n (max n d.nTotal) ∧ (r.1.us.iter : ℝ) ≤ share P n (max n d.nTotal) ∧
    r.2.2 ≤ P.k ^ 2 * P.H n * (d.nTotal + 1) ∧ r.1.nTotal = d.nTotal + 1 := by
  have hsz := hwf.size_eq
  have h2 : 2 ≤ max n d.nTotal := le_trans hc.two (le_max_left _ _)
  have hk := hc.hk
  unfold flushC at h
  split at h
  · cases h
  · rename_i i hi
    rw [hwf.converted_eq] at h
    simp only [Res.ok_bind, Res.bind_eq_ok] at h
    obtain ⟨c, hcl, y, hy, z, hz, h⟩ := h
    cases h
    have hit := create_iter hy
    have hlen : (d.c0.live ++ [e]).length = d.c0.live.length + 1 := by simp
    have hne : d.c0.live ++ [e] ≠ [] := by simp
    have e1 := unionStepC_le hz
    simp only at e1
    have htot : US.totalIter d.ks i (BT.encode P.k (P.H d.nv) d.nv (d.c0.live ++ [e])) ≤
        P.k * P.k * (P.H n * (max n d.nTotal + 1)) := by
      rw [hnv, hks]
      refine le_trans (totalIter_le hc.hh (by omega) hne hlv i) ?_
      refine Nat.mul_le_mul_left _ (Nat.mul_le_mul_left _ ?_)
      rw [hlen]
      have := le_max_right n d.nTotal
      omega
    have hsh : (y.2.iter : ℝ) ≤ share P n (max n d.nTotal) := by
      rw [hit, hlen]
      refine iter_share h2 htot ?_
      rw [← hS, ← hnv]
      omega
    refine ⟨le_trans (by exact_mod_cast e1.1) hsh, ?_, ?_, by simp only; rw [e1.2.2.2]⟩
    · simp only
      rw [e1.2.1]; exact hsh
    · simp only
      rw [hnv, hks, getOnes_encode hc.hh]
      have b1 := bits_stored (k := P.k) (h := P.H n) hc.hh hlv
      have b2 : P.k * P.k * Bits.cnt (P.k * P.k) (Bits.below P.k (P.H n) (d.c0.live ++ [e])) (P.H n) ≤
          P.k * P.k * (P.H n * (d.c0.live.length + 1)) :=
        Nat.mul_le_mul_left _ (le_trans (cnt_le_edges hne _) (Nat.mul_le_mul_left _ (by rw [← hlen]; exact dedup_le _)))
      have b3 : P.k * P.k * (P.H n * wt es) + P.k * P.k * (P.H n * (d.c0.live.length + 1)) ≤
          P.k ^ 2 * P.H n * (d.nTotal + 1) := by
        rw [← Nat.mul_add, ← Nat.mul_add, pow_two, Nat.mul_assoc (P.k * P.k) (P.H n)]
        exact Nat.mul_le_mul_left _ (Nat.mul_le_mul_left _ (by omega))
      omega

/-- The share of a pending merge fixed by `iteration_size` is small. -/
def Sh (P : MPar) (n : Nat) (d : DKM) : Prop := d.us.finish = false → (d.us.iter : ℝ) ≤ share P n (max n d.nTotal)

theorem MInv.addEdgeC {P : MPar} (hS : P.S = realSizing) {n N : Nat} (hc : Cond P n N) {d : DKM}
    {es : List (Option (List Edge))} {p : Option Pd} (h : MInv P n d es p) (hN : d.nTotal ≤ N) (hs : Sh P n d) {e : Edge}
    {r : DKM × Nat × Nat} (hr : d.addEdgeC P e = .ok r) :
    (r.2.1 : ℝ) ≤ 2 * share P n (max n d.nTotal) ∧ r.2.2 ≤ P.k ^ 2 * P.H n * (d.nTotal + 1) ∧ Sh P n r.1 := by
  have h2 : 2 ≤ max n d.nTotal := le_trans hc.base.two (le_max_left _ _)
  have hs0 : 0 ≤ share P n (max n d.nTotal) := by unfold share; positivity
  unfold DKM.addEdgeC at hr
  simp only [Res.bind_eq_ok] at hr
  obtain ⟨z, hz, b, hb, hr⟩ := hr
  have u0 : d.unionStep P = .ok z.1 := by rw [unionStepC_fst, hz]; rfl
  obtain ⟨d1, hz1⟩ : ∃ d1, z.1 = d1 := ⟨_, rfl⟩
  obtain ⟨es1, p1, u⟩ := h.unionStep_ok hc hN (u0.trans (by rw [hz1]))
  have e1 := unionStepC_le hz
  have hi := u.inv
  have hw : (z.2 : ℝ) ≤ share P n (max n d.nTotal) := by
    cases hf : d.us.finish with
    | true => rw [e1.2.2.1 hf]; simpa using hs0
    | false => exact le_trans (by exact_mod_cast e1.1) (hs hf)
  have hfin : d.us.finish = true → d1.us.finish = true := by
    intro hf
    rcases u.how with ⟨g1, g2, g3⟩ | ⟨q, g1, g2, g3, _⟩ | ⟨q, g1, g2, g3, _⟩
    · subst g1; exact hi.st.1
    · subst g2; exact hi.st.1
    · subst g1; have := h.st.2.1.fin; rw [hf] at this; cases this
  have hsh1 : ∀ d' : DKM, d'.us = d1.us → d1.nTotal ≤ d'.nTotal → Sh P n d' := by
    intro d' hu hn hf
    rw [hu] at hf ⊢
    have hf' : d.us.finish = false := by
      cases hd : d.us.finish with
      | false => rfl
      | true => rw [hfin hd] at hf; cases hf
    rw [← hz1, e1.2.1]
    refine le_trans (hs hf') (share_mono P n h2 ?_)
    rw [u.nT] at hn
    omega
  rw [hz1] at hr
  split at hr
  · cases hr
    exact ⟨by simp only; linarith, Nat.zero_le _, hsh1 _ rfl (le_refl _)⟩
  · split at hr
    · rw [Res.bind_eq_ok] at hr
      obtain ⟨c, _, hr⟩ := hr
      cases hr
      exact ⟨by simp only; linarith, Nat.zero_le _, hsh1 _ rfl (by simp)⟩
    · rename_i hfull
      split at hr
      · rw [Res.bind_eq_ok] at hr
        obtain ⟨y, hy, hr⟩ := hr
        cases hr
        have key : (y.2.1 : ℝ) ≤ share P n (max n d1.nTotal) ∧ (y.1.us.iter : ℝ) ≤ share P n (max n d1.nTotal) ∧
            y.2.2 ≤ P.k ^ 2 * P.H n * (d1.nTotal + 1) ∧ y.1.nTotal = d1.nTotal + 1 := by
          have hcnt := hi.cnt
          cases p1 with
          | none =>
            exact flushC_le hS hc.base hi.wf hi.nv hi.lv (by simpa [batch] using hcnt) hi.st.2 hfull hy
          | some q =>
            obtain ⟨g1, g2, _⟩ := hi.st
            have hki : d1.us.ki ≤ RS := by have := g2.i_le; have := g1.hm; rw [hi.lv.len] at this; omega
            have hwr := wt_rest (es := es1) (i := d1.us.ki)
            exact flushC_le hS hc.base hi.wf hi.nv (hi.lv.rest hki) (by omega) g2.ks_eq hfull hy
        rw [u.nT] at key
        refine ⟨by simp only; push_cast; linarith [key.1], key.2.2.1, ?_⟩
        intro _
        simp only
        refine le_trans key.2.1 (share_mono P n h2 ?_)
        rw [key.2.2.2]
        omega
      · cases hr

theorem run_sh {P : MPar} (hS : P.S = realSizing) {n N : Nat} (hc : Cond P n N) {ops : List Op}
    (hr : OpsInRange n ops) (hN : (added ops).length ≤ N) {d : DKM} (h : run P n ops = .ok d) : Sh P n d := by
  have hT : P.S.Top := by rw [hS]; exact realSizing_top
  induction ops using List.reverseRecOn generalizing d with
  | nil =>
    rw [run_nil P hc.base.two] at h
    cases h
    intro hf; cases hf
  | append_singleton ops o ih =>
    have hr' : OpsInRange n ops := fun o ho => hr o (by simp [ho])
    have hlen := added_append ops [o]
    have hN' : (added ops).length ≤ N := by rw [hlen, List.length_append] at hN; omega
    rw [run_snoc, Res.bind_eq_ok] at h
    obtain ⟨d0, h0, h⟩ := h
    have hsh := ih hr' hN' h0
    cases o with
    | del e => cases h; exact hsh
    | add e =>
      obtain ⟨es, p, t⟩ := run_ok hT hc hr' hN' h0
      have h' : d0.addEdge P e = .ok d := h
      rw [addEdgeC_fst, Res.bind_eq_ok] at h'
      obtain ⟨r, h1, h2⟩ := h'
      cases h2
      exact (t.inv.addEdgeC hS hc (le_trans t.hi hN') hsh h1).2.2

/-! ### a flush copies everything -/

theorem cover_le (es : List (Option (List Edge))) : ∀ (X F : List Edge), (∀ x ∈ X, x ∈ F ∨ edgesIn es x) →
    X.dedup.length ≤ F.dedup.length + wt es := by
  induction es with
  | nil =>
    intro X F h
    have : X.dedup ⊆ F.dedup := by
      intro x hx
      rcases h x (List.mem_dedup.1 hx) with h1 | ⟨E, h1, _⟩
      · exact List.mem_dedup.2 h1
      · cases h1
    exact le_trans (List.subperm_of_subset (List.nodup_dedup X) this).length_le (Nat.le_add_right _ _)
  | cons o es ih =>
    intro X F h
    cases o with
    | none =>
      have := ih X F (by
        intro x hx
        rcases h x hx with h1 | ⟨E, h1, h2⟩
        · exact Or.inl h1
        · rcases List.mem_cons.1 h1 with h3 | h3
          · cases h3
          · exact Or.inr ⟨E, h3, h2⟩)
      simpa [wt] using this
    | some E =>
      have h1 := ih X (F ++ E) (by
        intro x hx
        rcases h x hx with h1 | ⟨E', h1, h2⟩
        · exact Or.inl (List.mem_append_left _ h1)
        · rcases List.mem_cons.1 h1 with h3 | h3
          · cases h3; exact Or.inl (List.mem_append_right _ h2)
          · exact Or.inr ⟨E', h3, h2⟩)
      have h2 := dedup_append_le' F E
      simp only [wt, List.map_cons, List.sum_cons, Option.elim] at h1 ⊢
      omega

theorem getOnes_ge {k h n : Nat} (hk : 0 < k) (hh : 1 ≤ h) (hn : n ≤ k ^ h) {E : List Edge}
    (hE : ∀ e ∈ E, InRange n e) : E.dedup.length ≤ US.getOnes (BT.encode k h n E) := by
  have h1 := Bits.lBits_count (k := k) (h := h) hk hh hn hE
  have h2 : List.count true (Bits.lBits (k * k) (Bits.below k h E) h) ≤ (Bits.lBits (k * k) (Bits.below k h E) h).length :=
    List.count_le_length
  unfold US.getOnes BT.encode
  simp only
  omega

theorem bits_ge {k h n : Nat} (hk : 0 < k) (hh : 1 ≤ h) (hn : n ≤ k ^ h) {es : List (Option (List Edge))}
    (hE : ∀ E, some E ∈ es → ∀ e ∈ E, InRange n e) : wt es ≤ bits (US.stored k h n es) := by
  induction es with
  | nil => simp [wt]
  | cons o es ih =>
    have ih' := ih (fun E hm => hE E (List.mem_cons_of_mem _ hm))
    simp only [US.stored, bits, wt, List.map_cons, List.sum_cons] at ih' ⊢
    refine Nat.add_le_add ?_ ih'
    cases o with
    | none => simp
    | some E => exact getOnes_ge hk hh hn (hE E (by simp))

theorem Track.flush_bits {P : MPar} (hnd : P.nd = false) {n N : Nat} (hc : Cond P n N) {G : List Edge} {d : DKM}
    {es : List (Option (List Edge))} {p : Option Pd} (t : Track P n G d es p) (hN : d.nTotal ≤ N) {e : Edge} (he : InRange n e)
    {r : DKM × Nat × Nat} (hr : d.addEdgeC P e = .ok r) (h0 : r.2.2 ≠ 0) : (G ++ [e]).dedup.length ≤ r.2.2 := by
  unfold DKM.addEdgeC at hr
  simp only [Res.bind_eq_ok] at hr
  obtain ⟨z, hz, b, hb, hr⟩ := hr
  have u0 : d.unionStep P = .ok z.1 := by rw [unionStepC_fst, hz]; rfl
  obtain ⟨d1, hz1⟩ : ∃ d1, z.1 = d1 := ⟨_, rfl⟩
  obtain ⟨es1, p1, u⟩ := t.inv.unionStep_ok hc hN (u0.trans (by rw [hz1]))
  have hi := u.inv
  rw [hz1] at hr
  split at hr
  · cases hr; exact absurd rfl h0
  · split at hr
    · rw [Res.bind_eq_ok] at hr
      obtain ⟨c, _, hr⟩ := hr
      cases hr; exact absurd rfl h0
    · split at hr
      · rename_i hfin
        rw [hnd, Bool.or_false] at hfin
        rw [Res.bind_eq_ok] at hr
        obtain ⟨y, hy, hr⟩ := hr
        cases hr
        have hp1 : p1 = none := by
          cases p1 with
          | none => rfl
          | some q => have := hi.st.2.1.fin; rw [hfin] at this; cases this
        subst hp1
        unfold flushC at hy
        split at hy
        · cases hy
        · rw [hi.wf.converted_eq] at hy
          simp only [Res.ok_bind, Res.bind_eq_ok] at hy
          obtain ⟨c, _, y', _, z', _, hy⟩ := hy
          cases hy
          simp only
          rw [hi.nv, hi.st.2]
          have hk := hc.base.hk
          have b1 := bits_ge (k := P.k) (h := P.H n) (n := n) (by omega) hc.base.hh hc.base.hn (fun E hE => (hi.lv.ne E hE).2)
          have b2 := getOnes_ge (k := P.k) (h := P.H n) (n := n) (by omega) hc.base.hh hc.base.hn (E := d1.c0.live ++ [e]) (by
            intro x hx
            rcases List.mem_append.1 hx with h1 | h1
            · exact hi.rng x h1
            · rw [List.mem_singleton.1 h1]; exact he)
          have b3 := cover_le es1 (G ++ [e]) (d1.c0.live ++ [e]) (by
            intro x hx
            rcases List.mem_append.1 hx with h1 | h1
            · rcases (u.held x).2 (t.comp hnd x h1) with h2 | h2 | h2
              · exact Or.inl (List.mem_append_left _ h2)
              · cases h2
              · exact Or.inr h2
            · exact Or.inl (List.mem_append_right _ h1))
          omega
      · cases hr

end DKM

open DKM in
/-- C77: after every history on a graph of `n` vertices, with `m` the number of edges counted, the next `add_edge`
processes at most `2(k²·h·log₂²(max n m) + 1)` queue elements of the pending and of the new merge (`h` the height of
the trees), and copies or builds trees of at most `k²·h·(m+1)` bits in all. -/
theorem C77_share {k n N : Nat} {nd : Bool} (hc : Cond (real k nd) n N) {ops : List Op} (hr : OpsInRange n ops)
    (hN : (added ops).length ≤ N) {d : DKM} (h : run (real k nd) n ops = .ok d) {e : Edge}
    {r : DKM × Nat × Nat} (ha : d.addEdgeC (real k nd) e = .ok r) :
    (r.2.1 : ℝ) ≤ 2 * ((k : ℝ) ^ 2 * (max 1 (Nat.clog k n) : ℕ) * Real.logb 2 (max n d.numberEdges : ℕ) ^ 2 + 1) ∧
    r.2.2 ≤ k ^ 2 * max 1 (Nat.clog k n) * (d.numberEdges + 1) := by
  obtain ⟨es, p, t⟩ := run_ok (P := real k nd) realSizing_top hc hr hN h
  have := t.inv.addEdgeC (P := real k nd) rfl hc (le_trans t.hi hN) (run_sh rfl hc hr hN h) ha
  exact ⟨this.1, this.2.1⟩

open DKM in
/-- C77: an `add_edge` that starts a merge copies or builds at least one bit for every edge of the graph (assertions
enabled). -/
theorem C77_copies {k n N : Nat} (hc : Cond (real k false) n N) {ops : List Op} (hr : OpsInRange n ops)
    (hN : (added ops).length ≤ N) {d : DKM} (h : run (real k false) n ops = .ok d) {e : Edge} (he : InRange n e)
    {r : DKM × Nat × Nat} (ha : d.addEdgeC (real k false) e = .ok r) (h0 : r.2.2 ≠ 0) :
    (added ops ++ [e]).dedup.length ≤ r.2.2 := by
  obtain ⟨es, p, t⟩ := run_ok (P := real k false) realSizing_top hc hr hN h
  exact t.flush_bits rfl hc (le_trans t.hi hN) he ha h0

open DKM DK in
/-- A case of both: on 256 vertices the 18th insertion starts a merge, after which the 19th finds it pending. -/
example : ∃ d r, run (real 2 false) 256 (inserts (w18.take 17)) = .ok d ∧ d.addEdgeC (real 2 false) (238, 187) = .ok r ∧
    r.2.1 ≠ 0 ∧ r.2.2 ≠ 0 ∧ r.1.us.finish = false ∧
    ∃ r', r.1.addEdgeC (real 2 false) (7, 7) = .ok r' ∧ r'.2.1 ≠ 0 ∧ Ctx (real 2 false) 256 1000000 := by
  have hc : check (run (P256 false) 256 (inserts (w18.take 17)) >>= fun d => d.addEdgeC (P256 false) (238, 187) >>=
      fun r => r.1.addEdgeC (P256 false) (7, 7) >>= fun r' => .ok (d, r, r')) (fun x =>
        decide (x.2.1.2.1 ≠ 0 ∧ x.2.1.2.2 ≠ 0 ∧ x.2.1.1.us.finish = false ∧ x.2.2.2.1 ≠ 0)) = true := by
    decide +kernel
  rw [← real_eq_256] at hc
  obtain ⟨x, h1, h2⟩ := check_iff.1 hc
  simp only [Res.bind_eq_ok] at h1
  obtain ⟨d, a1, r, a2, r', a3, a4⟩ := h1
  cases a4
  obtain ⟨b1, b2, b3, b4⟩ := of_decide_eq_true h2
  exact ⟨d, r, a1, a2, b1, b2, b3, r', a3, b4, real_ctx _ (by norm_num) (by norm_num)
    (Or.inr ⟨rfl, by rw [show Nat.clog 2 256 = 8 by decide +kernel]; norm_num⟩)⟩

end DK2
