import Verif.PropsWeight
import Verif.Prune
import Verif.EdgeDel
import Verif.PropsGraph2
import Verif.FloatSizing
/-!
# C110: reorganisations are rare

`del_edge` reorganises the graph when too many edges are marked.  How large are all reorganisations of a history together?
-/

namespace DK2
namespace DK
open HG (delsOf)

variable {K : K2Impl}

/-- The sizes (`get_number_edges()`) of the graph right after each `del_edge` that reorganised it, along a history from
`g`. -/
def reorgs (S : Sizing) : DK K → List Op → List Nat
  | _, [] => []
  | g, o :: os =>
    match g.step S o with
    | .ok g' =>
      (match o with
        | .del e => if g.rebuilds S e then [g'.numberEdges] else []
        | .add _ => []) ++ reorgs S g' os
    | _ => []

/-! ## Marked edges -/

/-- `add_edge` marks nothing. -/
theorem addEdge_marks (hK : K.Lawful) (hF : K.ForcedPure) {S : Sizing} {g g' : DK K} (hi : g.Inv) {e : Edge}
    (he : InRange g.nv e) (hr : g.addEdge S e = .ok g') :
    marks K g'.ks ≤ marks K g.ks ∧ (g'.ks = g.ks ∨ g'.c0.size = 0 ∧ ∃ t, some t ∈ g'.ks) := by
  unfold DK.addEdge at hr
  rw [containsForced_pure hF, hi.contains_eq hK he] at hr
  simp only [Res.ok_bind] at hr
  by_cases hm : e ∈ g.edgesOf
  · simp only [hm, decide_true, if_true, Res.ok.injEq] at hr
    subst hr; exact ⟨le_refl _, Or.inl rfl⟩
  simp only [hm, decide_false, Bool.false_eq_true, if_false] at hr
  have hl : e ∉ g.c0.live := fun hh => hm (List.mem_append_left _ hh)
  split at hr
  · obtain ⟨c', _, hr⟩ := Res.bind_eq_ok.1 hr
    simp only [Res.ok.injEq] at hr
    subst hr; exact ⟨le_refl _, Or.inl rfl⟩
  cases hs : selectLevel K S (max g.nv g.nTotal) g.ks 0 (S.maxsz (max g.nv g.nTotal) 0) with
  | none => rw [hs] at hr; cases hr
  | some r =>
    rw [hs] at hr
    obtain ⟨c', b1, b2, b3, _⟩ := hi.c0wf.clean_ok
    simp only [hi.c0wf.converted_eq, Res.ok_bind, b1, Res.ok.injEq] at hr
    subst hr
    have hlt := (selectLevel_lt S _ _ _ _ _ hs).2
    rw [Nat.zero_add] at hlt
    have hnd : (g.c0.live ++ [e]).Nodup := by
      rw [List.nodup_append]
      exact ⟨hi.c0wf.live_nodup, by simp, by
        intro a ha b hb hab; simp at hb; exact hl (hb ▸ hab ▸ ha)⟩
    have hrg : ∀ e' ∈ g.c0.live ++ [e], InRange g.nv e' := by
      intro e' he'
      rcases List.mem_append.1 he' with h1 | h1
      · exact hi.range e' (List.mem_append_left _ h1)
      · simp at h1; exact h1 ▸ he
    have hz := mergeUpTo_marked hK (r + 1) _ g.ks (hK.build_valid _ _ hnd hrg) hi.val
      (hK.build_marked _ _ hnd hrg)
    refine ⟨?_, Or.inr ⟨by simp only; rw [b2.size_eq, b3]; rfl, (mergeUpTo K (r + 1) (K.build (g.c0.live ++ [e]) g.nv) g.ks).1, ?_⟩⟩
    · show marks K ((mergeUpTo K (r + 1) _ g.ks).2.set r (some (mergeUpTo K (r + 1) _ g.ks).1)) ≤ _
      rw [mergeUpTo_snd, set_replicate_drop hlt, marks_append, marks_replicate, marks_some, hz]
      have := marks_drop (r + 1) g.ks
      omega
    · show some _ ∈ (mergeUpTo K (r + 1) _ g.ks).2.set r (some (mergeUpTo K (r + 1) _ g.ks).1)
      rw [mergeUpTo_snd, set_replicate_drop hlt]
      simp

theorem mergeAll_marked (hK : K.Lawful) {v : Nat} : ∀ (ks : List (Option K.T)) (t u : K.T), K.valid v t → AllValid K v ks →
    K.marked t = 0 → mergeAll K (some t) ks = .ok (some u) → K.marked u = 0
  | [], t, u, _, _, h0, h => by simp [mergeAll] at h; exact h ▸ h0
  | none :: ks, t, u, hv, hks, h0, h => by
    simp only [mergeAll] at h
    exact mergeAll_marked hK ks t u hv hks.tail h0 h
  | some a :: ks, t, u, hv, hks, h0, h => by
    simp only [mergeAll] at h
    exact mergeAll_marked hK ks _ u (hK.union_valid _ _ _ hv hks.head) hks.tail (hK.union_marked _ _ _ hv hks.head) h

/-- What a reorganisation leaves in the levels: nothing, or one tree, made from the buffer `l` and the trees there were. -/
theorem rebuild_trees (hK : K.Lawful) (hF : K.ForcedPure) {S : Sizing} {g g' : DK K} (h : g.Inv) (h2 : 2 ≤ g.nv)
    (hr : g.rebuild S = .ok g') :
    ∃ i, i < RS ∧ (g'.ks = (List.replicate RS none).set i none ∨
      ∃ (l : List Edge) (t : K.T), l.Nodup ∧ (∀ e ∈ l, InRange g.nv e) ∧ (∀ e ∈ l, e = (1, 1) ∨ e ∈ g.edgesOf) ∧
        mergeAll K (some (K.build l g.nv)) g.ks = .ok (some t) ∧
        g'.ks = (List.replicate RS none).set i (some (K.erase t (1, 1)).2)) := by
  have h11 : InRange g.nv (1, 1) := ⟨by simp; omega, by simp; omega⟩
  unfold DK.rebuild at hr
  rw [Res.bind_eq_ok] at hr
  obtain ⟨⟨oo, g1⟩, hprep, hr⟩ := hr
  rw [Res.bind_eq_ok] at hr
  obtain ⟨⟨tmp, c1⟩, hdrain, hr⟩ := hr
  rw [Res.bind_eq_ok] at hr
  obtain ⟨tmp', hmerge, hr⟩ := hr
  rw [Res.bind_eq_ok] at hr
  obtain ⟨ks, hks, hr⟩ := hr
  rw [wr_eq_ok] at hks
  obtain ⟨hi, rfl⟩ := hks
  simp only at hdrain hmerge hr
  have hp : g1.Inv ∧ g1.nv = g.nv ∧ (∀ e, e ∈ g1.edgesOf → e = (1, 1) ∨ e ∈ g.edgesOf) ∧
      (g1.ks = g.ks ∨ g1.c0.size = 0 ∧ ∃ t, some t ∈ g1.ks) ∧ (oo = true → g1.c0.size = 0) := by
    unfold rebuildPrep at hprep
    split at hprep
    · rename_i h0
      rw [h.contains_eq hK h11] at hprep
      simp only [Res.ok_bind] at hprep
      obtain ⟨g2, hadd, hp2⟩ := Res.bind_eq_ok.1 hprep
      simp only [Res.ok.injEq, Prod.mk.injEq] at hp2
      obtain ⟨rfl, rfl⟩ := hp2
      obtain ⟨a1, a2, a3, a4, a5⟩ := h.addEdge hK hF S h11 hadd
      refine ⟨a1, a2, fun e he => (a3 e).1 he, (addEdge_marks hK hF h h11 hadd).2, ?_⟩
      intro hm
      rw [a4 (by simpa using hm)]; exact h0
    · simp only [Res.ok.injEq, Prod.mk.injEq] at hprep
      obtain ⟨rfl, rfl⟩ := hprep
      exact ⟨h, rfl, fun _ => Or.inr, Or.inl rfl, by intro h; cases h⟩
  obtain ⟨i1, i2, i3, i4, i5⟩ := hp
  refine ⟨_, by simpa using hi, ?_⟩
  unfold rebuildDrain at hdrain
  split at hdrain
  · rename_i hpos
    rw [i1.c0wf.converted_eq] at hdrain
    obtain ⟨c', b1, _⟩ := i1.c0wf.clean_ok
    simp only [Res.ok_bind, b1, Res.ok.injEq, Prod.mk.injEq] at hdrain
    obtain ⟨rfl, rfl⟩ := hdrain
    have hlr : ∀ e ∈ g1.c0.live, InRange g1.nv e := fun e he => i1.range e (List.mem_append_left _ he)
    have hbv := hK.build_valid _ _ i1.c0wf.live_nodup hlr
    obtain ⟨t', m1, _⟩ := mergeAll_some hK g1.ks _ hbv i1.val
    rw [m1] at hmerge
    simp only [Res.ok.injEq] at hmerge
    subst hmerge
    have hoo : oo = false := by
      cases oo with
      | false => rfl
      | true => have := i5 rfl; omega
    subst hoo
    simp only [Bool.false_eq_true, if_false, Res.ok.injEq] at hr
    subst hr
    have hk : g1.ks = g.ks := by
      rcases i4 with h | ⟨h, _⟩
      · exact h
      · omega
    refine Or.inr ⟨g1.c0.live, t', i1.c0wf.live_nodup, by rw [← i2]; exact hlr,
      fun e he => i3 e (List.mem_append_left _ he), by rw [← hk, ← i2]; exact m1, ?_⟩
    simp only [List.set_set]
  · simp only [Res.ok.injEq, Prod.mk.injEq] at hdrain
    obtain ⟨rfl, rfl⟩ := hdrain
    obtain ⟨rfl, _⟩ := mergeAll_ok_none hmerge
    left
    split at hr
    · simp only [Res.ok.injEq] at hr
      subst hr
      rfl
    · cases hr

theorem marks_one {i : Nat} (o : Option K.T) : marks K ((List.replicate RS none).set i o) ≤ o.elim 0 K.marked := by
  by_cases hi : i < RS
  · have := DKD.marks_set (K := K) (i := i) (p := none) o (E := List.replicate RS none) (by simp [hi])
    rw [marks_replicate] at this
    simp only [Option.elim_none] at this
    omega
  · rw [List.set_eq_of_length_le (by simp; omega), marks_replicate]; omega

theorem rebuild_marks (hK : K.Lawful) (hF : K.ForcedPure) (hM : K.MarksOne) {S : Sizing} {g g' : DK K} (h : g.Inv)
    (h2 : 2 ≤ g.nv) (hr : g.rebuild S = .ok g') : marks K g'.ks ≤ 1 := by
  obtain ⟨i, _, h1 | ⟨l, t, b1, b2, _, b4, b5⟩⟩ := rebuild_trees hK hF h h2 hr
  · rw [h1]
    exact (marks_one none).trans (by simp)
  · rw [b5]
    refine (marks_one _).trans ?_
    have hbv := hK.build_valid _ _ b1 b2
    have hz := mergeAll_marked hK _ _ _ hbv h.val (hK.build_marked _ _ b1 b2) b4
    obtain ⟨t', m1, m2, _⟩ := mergeAll_some hK g.ks _ hbv h.val
    rw [m1] at b4
    simp only [Res.ok.injEq, Option.some.injEq] at b4
    subst b4
    have := hM g.nv t' (1, 1) m2 ⟨by simp; omega, by simp; omega⟩
    simp only [Option.elim_some]
    split at this <;> omega

/-- One `del_edge`: at most one more mark; a reorganisation was due by the rule, and leaves at most one mark. -/
theorem delEdge_reorg (hK : K.Lawful) (hF : K.ForcedPure) (hM : K.MarksOne) {S : Sizing} {g g' : DK K} (h : g.Inv)
    (hc : g.edgesOf.length ≤ g.nTotal) (h2 : 2 ≤ g.nv) {e : Edge} (he : InRange g.nv e) (hr : g.delEdge S e = .ok g') :
    (g.rebuilds S e = false → marks K g'.ks ≤ marks K g.ks + 1 ∧ g'.nTotal ≤ g.nTotal) ∧
    (g.rebuilds S e = true → ∃ k t, k ≤ marks K g.ks + 1 ∧ S.rebuild k t = true ∧ g'.nTotal ≤ t + 1 ∧ t ≤ g.nTotal ∧
      marks K g'.ks ≤ 1) := by
  have hdec : (if e ∈ g.edgesOf then decr g.nTotal else g.nTotal) ≤ g.nTotal := by
    split
    · rename_i hm
      have := List.length_pos_of_mem hm
      unfold decr; rw [if_neg (by omega)]; omega
    · exact le_refl _
  refine ⟨fun hq => ?_, fun hq => ?_⟩
  · obtain ⟨g1, a1, _, _, _, a5, _⟩ := h.delEdge_quiet hK S he hq
    rw [hr] at a1; cases a1
    refine ⟨?_, by rw [a5]; exact hdec⟩
    by_cases hl : e ∈ g.c0.live
    · obtain ⟨c', b1, _⟩ := h.c0wf.erase_ok e
      unfold DK.delEdge at hr
      rw [b1] at hr
      simp only [Res.ok_bind, hl, decide_true, if_true, Res.ok.injEq] at hr
      subst hr
      exact Nat.le_succ _
    · have := (delEdge_marks hK hM S h he hl hq hr).2
      split at this <;> omega
  · have hb := h.delEdge_rebuild hK hF S he h2 hq hr
    have hn : g'.nTotal ≤ (if e ∈ g.edgesOf then decr g.nTotal else g.nTotal) + 1 := by
      rw [hb.2.2.2.1]; split <;> split <;> omega
    obtain ⟨c', b1, b2, b3, b4, b5, b6⟩ := h.c0wf.erase_ok e
    unfold DK.delEdge at hr
    unfold DK.rebuilds at hq
    rw [b1] at hr hq
    by_cases hl : e ∈ g.c0.live
    · simp only [hl, decide_true] at hq; cases hq
    simp only [Res.ok_bind, hl, decide_false, Bool.false_eq_true, if_false] at hr hq
    rw [if_pos hq] at hr
    have hc' : c' = g.c0 := by
      have : g.c0.edgeLst e = none := by
        unfold C0.erase at b1
        cases h' : g.c0.edgeLst e with
        | none => rfl
        | some i =>
          rw [h'] at b1
          simp only [hl, decide_false, Res.bind_eq_ok] at b1
          obtain ⟨_, _, _, _, h2⟩ := b1
          simp at h2
      unfold C0.erase at b1
      rw [this] at b1
      simp only [Res.ok.injEq, Prod.mk.injEq] at b1
      exact b1.2.symm
    subst hc'
    obtain ⟨c1, c2, _, c4, _⟩ := h.afterErase hK he hl
    have hk : (g.afterErase e).1 ≤ marks K g.ks + 1 := by
      show (sweep K (eraseScan K e g.ks).2).1 ≤ _
      have h1 := eraseScan_marks hM he h.val
      have h2 := (sweep_marks (K := K) (ks := (eraseScan K e g.ks).2)).1
      split at h1 <;> omega
    exact ⟨_, _, hk, hq, by rw [c4]; exact hn, by rw [c4]; exact hdec,
      rebuild_marks hK hF hM c1 (by rw [c2]; exact h2) hr⟩


/-! ## The potential argument -/

theorem reorgs_append {S : Sizing} : ∀ (a : List Op) {g g' : DK K} (b : List Op), runFrom S g a = .ok g' →
    reorgs S g (a ++ b) = reorgs S g a ++ reorgs S g' b
  | [], g, g', b, h => by
    simp only [runFrom, Res.ok.injEq] at h
    subst h; rfl
  | o :: a, g, g', b, h => by
    unfold runFrom at h
    rw [Res.bind_eq_ok] at h
    obtain ⟨g1, h1, h2⟩ := h
    show reorgs S g (o :: (a ++ b)) = _
    rw [reorgs, reorgs, h1]
    simp only
    rw [reorgs_append a b h2, List.append_assoc]

/-- If a reorganisation with `k` marked edges is due only when the graph is no larger than about `C * (k - 1)`, the
reorganisations of a history cost no more than `C + 2` for each deletion, plus `C` for each edge marked before. -/
theorem reorgs_le (hK : K.Lawful) (hF : K.ForcedPure) (hM : K.MarksOne) {S : Sizing} {M : Nat} {C : ℝ} (hC : 0 ≤ C)
    (hS : ∀ k t, t ≤ M → S.rebuild k t = true → (t + 1 : ℝ) ≤ C * ((k : ℝ) - 1) + 2) :
    ∀ (ops : List Op) {g : DK K} {G : Edge → Prop}, Track g G → 2 ≤ g.nv → OpsInRange g.nv ops →
      g.nTotal + ops.length ≤ M →
      ((reorgs S g ops).sum : ℝ) ≤ C * marks K g.ks + (C + 2) * (delsOf ops).length
  | [], g, G, _, _, _, _ => by
    simp only [reorgs, List.sum_nil, HG.delsOf, List.filterMap_nil, List.length_nil, Nat.cast_zero, mul_zero, add_zero]
    exact mul_nonneg hC (Nat.cast_nonneg _)
  | o :: os, g, G, ht, h2, hr, hm => by
    have hnn : (0 : ℝ) ≤ C * marks K g.ks + (C + 2) * (delsOf (o :: os)).length :=
      add_nonneg (mul_nonneg hC (Nat.cast_nonneg _)) (mul_nonneg (by linarith) (Nat.cast_nonneg _))
    have ho : InRange g.nv o.edge := hr o (by simp)
    have hos : OpsInRange g.nv os := fun p hp => hr p (List.mem_cons_of_mem _ hp)
    rw [List.length_cons] at hm
    cases hstep : g.step S o with
    | ok g' =>
      obtain ⟨ht', hnv⟩ := ht.step hK hF S ho h2 hstep
      have ih := fun hb => reorgs_le hK hF hM hC hS os ht' (by rw [hnv]; exact h2) (by rw [hnv]; exact hos) hb
      cases o with
      | add e =>
        have h1 := (addEdge_marks hK hF ht.inv ho hstep).1
        have hn : g'.nTotal ≤ g.nTotal + 1 := by
          obtain ⟨_, _, _, a4, a5⟩ := ht.inv.addEdge hK hF S ho hstep
          by_cases hmem : e ∈ g.edgesOf
          · rw [a4 hmem]; omega
          · rw [a5 hmem]
        have := ih (by omega)
        simp only [reorgs, hstep, List.nil_append]
        have e1 : delsOf (Op.add e :: os) = delsOf os := rfl
        rw [e1]
        have h1' : (marks K g'.ks : ℝ) ≤ marks K g.ks := by exact_mod_cast h1
        nlinarith [mul_le_mul_of_nonneg_left h1' hC]
      | del e =>
        obtain ⟨d1, d2⟩ := delEdge_reorg hK hF hM ht.inv ht.cnt h2 ho hstep
        have e1 : ((delsOf (Op.del e :: os)).length : ℝ) = (delsOf os).length + 1 := by
          have : delsOf (Op.del e :: os) = e :: delsOf os := rfl
          rw [this, List.length_cons]; push_cast; ring
        rw [e1]
        simp only [reorgs, hstep]
        cases hq : g.rebuilds S e with
        | false =>
          obtain ⟨b1, b2⟩ := d1 hq
          have := ih (by omega)
          simp only [Bool.false_eq_true, if_false, List.nil_append]
          have b1' : (marks K g'.ks : ℝ) ≤ marks K g.ks + 1 := by exact_mod_cast b1
          nlinarith [mul_le_mul_of_nonneg_left b1' hC]
        | true =>
          obtain ⟨k, t, b1, b2, b3, b4, b5⟩ := d2 hq
          have := ih (by omega)
          simp only [if_true, List.cons_append, List.nil_append, List.sum_cons, Nat.cast_add]
          have c1 := hS k t (by omega) b2
          have b1' : (k : ℝ) ≤ marks K g.ks + 1 := by exact_mod_cast b1
          have b3' : (g'.numberEdges : ℝ) ≤ t + 1 := by exact_mod_cast b3
          have b5' : (marks K g'.ks : ℝ) ≤ 1 := by exact_mod_cast b5
          have m1 := mul_le_mul_of_nonneg_left b5' hC
          have m2 : C * ((k : ℝ) - 1) ≤ C * marks K g.ks := mul_le_mul_of_nonneg_left (by linarith) hC
          nlinarith
    | throws => simpa [reorgs, hstep] using hnn
    | ub => simpa [reorgs, hstep] using hnn
    | abort => simpa [reorgs, hstep] using hnn
    | diverge => simpa [reorgs, hstep] using hnn

/-! ## The rule for reorganising -/

/-- `log2 y` is well below `y`. -/
theorem logb2_le {y : ℝ} (hy : 0 < y) : Real.logb 2 y ≤ 5 / 9 * y := by
  have he : (2.7182818283 : ℝ) < Real.exp 1 := Real.exp_one_gt_d9
  have hl : (0.6931471803 : ℝ) < Real.log 2 := Real.log_two_gt_d9
  have hep := Real.exp_pos 1
  have h1 := Real.log_le_sub_one_of_pos (div_pos hy hep)
  rw [Real.log_div hy.ne' hep.ne', Real.log_exp] at h1
  have h2 : Real.log y ≤ y / Real.exp 1 := by linarith
  unfold Real.logb
  rw [div_le_iff₀ (by linarith)]
  refine h2.trans ?_
  rw [div_le_iff₀ hep]
  have h3 : (0.6931471803 : ℝ) * 2.7182818283 ≤ Real.log 2 * Real.exp 1 := by
    apply mul_le_mul hl.le he.le (by norm_num) (by linarith)
  have : 5 / 9 * y * Real.log 2 * Real.exp 1 = y * (5 / 9 * (Real.log 2 * Real.exp 1)) := by ring
  rw [this]
  nlinarith

/-- `log2 (log2 m)`, for `m` at least `4`. -/
noncomputable def ll (m : Nat) : ℝ := Real.logb 2 (Real.logb 2 (max 4 m : Nat))

theorem ll_one (m : Nat) : 1 ≤ ll m := by
  unfold ll
  have h : (2 : ℝ) ≤ Real.logb 2 (max 4 m : Nat) := by
    rw [Real.le_logb_iff_rpow_le (by norm_num) (by positivity)]
    have : (4 : ℝ) ≤ (max 4 m : Nat) := by exact_mod_cast le_max_left _ _
    norm_num
  rw [Real.le_logb_iff_rpow_le (by norm_num) (by linarith), Real.rpow_one]
  exact h

theorem real_rebuild {M k t : Nat} (htM : t ≤ M) (h : realSizing.rebuild k t = true) :
    (t + 1 : ℝ) ≤ 4 / 3 * ll M * ((k : ℝ) - 1) + 2 := by
  have hl := ll_one M
  unfold realSizing at h
  simp only at h
  split at h
  · cases h
  split at h
  · rename_i h1
    subst h1
    have hk : 0 < k := by simpa using h
    have : (1 : ℝ) ≤ k := by exact_mod_cast hk
    have := mul_nonneg (by linarith : 0 ≤ 4 / 3 * ll M) (by linarith : (0 : ℝ) ≤ (k : ℝ) - 1)
    push_cast; linarith
  split at h
  · cases h
  have h3 : 3 ≤ t := by omega
  have h3' : (3 : ℝ) ≤ t := by exact_mod_cast h3
  have hlt : (t : ℝ) / Real.logb 2 (Real.logb 2 t) < k := by simpa using h
  have hl1 : 1 < Real.logb 2 t := by
    rw [Real.lt_logb_iff_rpow_lt (by norm_num) (by linarith), Real.rpow_one]; linarith
  have hL : 0 < Real.logb 2 (Real.logb 2 t) := Real.logb_pos (by norm_num) hl1
  rw [div_lt_iff₀ hL] at hlt
  have hsmall : Real.logb 2 (Real.logb 2 t) < t / 3 := by
    have a1 := logb2_le (y := Real.logb 2 t) (by linarith)
    have a2 := logb2_le (y := (t : ℝ)) (by linarith)
    nlinarith
  have hk3 : (3 : ℝ) < k := by
    by_contra hh
    have hh := not_lt.1 hh
    have := mul_le_mul_of_nonneg_right hh hL.le
    linarith
  have hk4 : (4 : ℝ) ≤ k := by
    have : 3 < k := by exact_mod_cast hk3
    exact_mod_cast this
  have hmono : Real.logb 2 (Real.logb 2 t) ≤ ll M := by
    unfold ll
    apply Real.logb_le_logb_of_le (by norm_num) (by linarith)
    apply Real.logb_le_logb_of_le (by norm_num) (by linarith)
    exact_mod_cast htM.trans (le_max_right _ _)
  have m1 := mul_le_mul_of_nonneg_left hmono (by linarith : (0 : ℝ) ≤ k)
  nlinarith

/-- The same for a rule decided in floating point. -/
theorem float_rebuild {A : FloatLib} (hA : A.Accurate) {M k t : Nat} (hM : M < 2 ^ 52) (htM : t ≤ M)
    (h : (floatSizing A).rebuild k t = true) : (t + 1 : ℝ) ≤ 27 / 20 * ll M * ((k : ℝ) - 1) + 2 := by
  have hl := ll_one M
  by_cases h3 : 3 ≤ t
  · have h3' : (3 : ℝ) ≤ t := by exact_mod_cast h3
    rw [floatSizing_rebuild A k h3 (by omega)] at h
    have hlt := of_decide_eq_true h
    have hlt : (t : ℝ) / Real.logb 2 (Real.logb 2 t) * (1 - 8 * feps) < k :=
      lt_of_le_of_lt (fthr hA h3 (by omega)).1 hlt
    have e := feps_pos
    have e' := feps_le
    have hl1 : 1 < Real.logb 2 t := by
      rw [Real.lt_logb_iff_rpow_lt (by norm_num) (by linarith), Real.rpow_one]; linarith
    have hL : 0 < Real.logb 2 (Real.logb 2 t) := Real.logb_pos (by norm_num) hl1
    have hmono : Real.logb 2 (Real.logb 2 t) ≤ ll M := by
      unfold ll
      apply Real.logb_le_logb_of_le (by norm_num) (by linarith)
      apply Real.logb_le_logb_of_le (by norm_num) (by linarith)
      exact_mod_cast htM.trans (le_max_right _ _)
    have hsmall : Real.logb 2 (Real.logb 2 t) ≤ 25 / 81 * t := by
      have a1 := logb2_le (y := Real.logb 2 t) (by linarith)
      have a2 := logb2_le (y := (t : ℝ)) (by linarith)
      linarith
    generalize Real.logb 2 (Real.logb 2 t) = L at *
    have h99 : (99 / 100 : ℝ) ≤ 1 - 8 * feps := by linarith
    have hlt2 : (t : ℝ) * (99 / 100) < k * L := by
      have : (t : ℝ) / L * (99 / 100) ≤ t / L * (1 - 8 * feps) := mul_le_mul_of_nonneg_left h99 (by positivity)
      have h2 := lt_of_le_of_lt this hlt
      rw [div_mul_eq_mul_div, div_lt_iff₀ hL] at h2
      exact h2
    have hk3 : (3 : ℝ) < k := by
      by_contra hh
      have hh := not_lt.1 hh
      have := mul_le_mul_of_nonneg_right hh hL.le
      linarith
    have hk4 : (4 : ℝ) ≤ k := by
      have : 3 < k := by exact_mod_cast hk3
      exact_mod_cast this
    have m1 := mul_le_mul_of_nonneg_left hmono (by linarith : (0 : ℝ) ≤ k)
    nlinarith
  · have hr : (floatSizing A).rebuild k t = realSizing.rebuild k t := fhyb_rebuild hA (by omega) k
    rw [hr] at h
    have h0 := real_rebuild htM h
    have hk : (1 : ℝ) ≤ k := by
      have : t = 0 ∨ t = 1 ∨ t = 2 := by omega
      rcases this with rfl | rfl | rfl
      · cases h
      · have : 0 < k := by simpa [realSizing] using h
        exact_mod_cast this
      · cases h
    have := mul_nonneg (by linarith : 0 ≤ ll M) (by linarith : (0 : ℝ) ≤ (k : ℝ) - 1)
    nlinarith

/-- Everything together, for any rule that is as rare. -/
theorem reorgs_create (hK : K.Lawful) (hF : K.ForcedPure) (hM : K.MarksOne) {S : Sizing} {C : ℝ} (hC : 0 ≤ C) {n : Nat}
    {ops : List Op} {g : DK K} (hS : ∀ k t, t ≤ ops.length → S.rebuild k t = true → (t + 1 : ℝ) ≤ C * ((k : ℝ) - 1) + 2)
    (ho : OpsInRange n ops) (hc : create K S n = .ok g) :
    ((reorgs S g ops).sum : ℝ) ≤ (C + 2) * (delsOf ops).length := by
  unfold create at hc
  split at hc
  · cases hc
  rename_i hn
  simp only [Res.ok.injEq] at hc
  subst hc
  cases ops with
  | nil => simp [reorgs, HG.delsOf]
  | cons o os =>
    have hn2 : 2 ≤ n := by
      have := (ho o (by simp)).1
      omega
    have ht : Track (K := K) (init K S n) (fun _ => False) := by
      refine ⟨init_inv S n, ?_, ?_, ?_⟩
      · intro e _; simp [init_edges]
      · intro h; simp [init_edges] at h
      · simp [init_edges]
    have := reorgs_le hK hF hM hC hS (o :: os) ht hn2 ho (by show 0 + _ ≤ _; omega)
    have hz : marks K (init K S n).ks = 0 := marks_replicate _
    rw [hz] at this
    simpa using this

end DK

open DK
open HG (delsOf)

/-- C110: over any history, the graphs reorganised have together at most `4/3 * log2 (log2 |ops|) + 2` edges for
each deletion. -/
theorem C110_reorganisations {K : K2Impl} (hK : K.Lawful) (hF : K.ForcedPure) (hM : K.MarksOne) {n : Nat} {ops : List Op}
    {g : DK K} (ho : OpsInRange n ops) (hc : create K realSizing n = .ok g) :
    ((reorgs realSizing g ops).sum : ℝ) ≤
      (4 / 3 * Real.logb 2 (Real.logb 2 (max 4 ops.length : Nat)) + 2) * (delsOf ops).length := by
  have := reorgs_create hK hF hM (S := realSizing) (C := 4 / 3 * ll ops.length)
    (by have := ll_one ops.length; linarith) (fun k t h => real_rebuild h) ho hc
  simpa [ll] using this

/-- C110, with the rule decided by any accurate floating-point library. -/
theorem C110_reorganisations_float {K : K2Impl} (hK : K.Lawful) (hF : K.ForcedPure) (hM : K.MarksOne) {A : FloatLib}
    (hA : A.Accurate) {n : Nat} {ops : List Op} {g : DK K} (hl : ops.length < 2 ^ 52) (ho : OpsInRange n ops)
    (hc : create K (floatSizing A) n = .ok g) :
    ((reorgs (floatSizing A) g ops).sum : ℝ) ≤
      (27 / 20 * Real.logb 2 (Real.logb 2 (max 4 ops.length : Nat)) + 2) * (delsOf ops).length := by
  have := reorgs_create hK hF hM (S := floatSizing A) (C := 27 / 20 * ll ops.length)
    (by have := ll_one ops.length; linarith) (fun k t h => float_rebuild hA hl h) ho hc
  simpa [ll] using this

/-- Instance: a history with a reorganisation, of a graph that then reports two edges. -/
example : ∃ g : DK refK2, create refK2 realSizing 3 = .ok g ∧ 2 ∈ reorgs realSizing g wDrift := by
  obtain ⟨g1, hg1, h1⟩ := real_check (n := 3) (ops := wDrift)
    (f := fun g => g.numberEdges = 2) (by decide) (by decide)
  have hsplit : wDrift = wDrift.dropLast ++ [.del (2, 1)] := by decide
  rw [hsplit] at hg1
  obtain ⟨g, hg, hd⟩ := run_snoc_ok realSizing hg1
  obtain ⟨g', hg', h2⟩ := real_check (n := 3) (ops := wDrift.dropLast)
    (f := fun g => decide (g.numberEdges = 2 ∧ g.contains (2, 1) = .ok true)) (by decide) (by decide)
  rw [hg] at hg'; cases hg'
  simp only [decide_eq_true_eq] at h1 h2
  have hq := rebuilds_of_count (ops := wDrift.dropLast) (e := (2, 1)) (by decide) hg hd h2.2 (by rw [h1, h2.1]; decide)
  unfold run at hg
  rw [Res.bind_eq_ok] at hg
  obtain ⟨g0, c0, c1⟩ := hg
  refine ⟨g0, c0, ?_⟩
  rw [hsplit, reorgs_append _ _ c1]
  apply List.mem_append_right
  have hd' : g.step realSizing (.del (2, 1)) = .ok g1 := hd
  simp [reorgs, hd', hq, h1]

end DK2
