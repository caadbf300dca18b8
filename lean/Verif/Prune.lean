import Verif.DKMore
import Verif.Marks
import Verif.PropsIter
import Verif.WinSpec
import Verif.BitK2
/-!
# Histories with rare deletions of settled edges

Marked edges of the levels, and what `add_edge` and `del_edge` do while there are few of them.
-/

namespace DK2

theorem refK2_marksOne : refK2.MarksOne := by
  intro n t e _ _
  show (if e ∈ t.live then _ else _ : Bool × RefTree).2.dead.length ≤ _
  by_cases h : e ∈ t.live <;> simp [h]

theorem bitK2_marksOne (k : Nat) (H : Nat → Nat) : (bitK2 k H).MarksOne := by
  intro n t e _ _
  show (t.erase k e).2.er ≤ t.er + (if (t.erase k e).1 then 1 else 0)
  unfold MT.erase
  split
  · split <;> simp
  · simp

namespace DK

variable {K : K2Impl}

theorem eraseScan_marks (hM : K.MarksOne) {n : Nat} {e : Edge} (he : InRange n e) :
    ∀ {ks : List (Option K.T)}, AllValid K n ks →
      marks K (eraseScan K e ks).2 ≤ marks K ks + (if (eraseScan K e ks).1 then 1 else 0) := by
  intro ks
  induction ks with
  | nil => intro _; simp [eraseScan]
  | cons o ks ih =>
    intro hv
    have := ih hv.tail
    cases o with
    | none =>
      have h1 : (eraseScan K e (none :: ks)).1 = (eraseScan K e ks).1 := rfl
      have h2 : (eraseScan K e (none :: ks)).2 = none :: (eraseScan K e ks).2 := rfl
      rw [h1, h2, marks_none, marks_none]
      exact this
    | some t =>
      have h1 := hM n t e hv.head he
      simp only [eraseScan]
      by_cases hb : (K.erase t e).1 = true
      · rw [hb] at h1
        simp only [hb, if_true, marks_some] at h1 ⊢; omega
      · have hb' : (K.erase t e).1 = false := by simpa using hb
        rw [hb'] at h1
        simp only [hb', Bool.false_eq_true, if_false, marks_some] at h1 ⊢; omega

theorem sweep_marks : ∀ {ks : List (Option K.T)}, (sweep K ks).1 ≤ marks K ks ∧ marks K (sweep K ks).2 = (sweep K ks).1 := by
  intro ks
  induction ks with
  | nil => simp [sweep]
  | cons o ks ih =>
    obtain ⟨h1, h2⟩ := ih
    cases o with
    | none => simpa [sweep] using ⟨h1, h2⟩
    | some t =>
      simp only [sweep]
      split <;> simp only [marks_none, marks_some] <;> omega

/-- `add_edge` while fewer edges are marked than the graph is large, and the buffer has no erased slot. -/
theorem addEdge_few (hK : K.Lawful) (hF : K.ForcedPure) {S : Sizing} (hT : S.Top) {g : DK K}
    (hi : g.Inv) (hc : g.nTotal = g.edgesOf.length) (hc0m : g.c0.marked = 0) {e : Edge} (he : InRange g.nv e)
    (hmk : marks K g.ks + 1 < max g.nv g.nTotal) :
    ∃ g', g.addEdge S e = .ok g' ∧ g'.c0.marked = 0 ∧ marks K g'.ks ≤ marks K g.ks ∧
      ((e ∈ g.edgesOf ∧ g' = g) ∨ (e ∉ g.edgesOf ∧ (g'.c0.live = [] ∨
        g'.c0.live = g.c0.live ++ [e] ∧ g.c0.live.length < S.maxsz (max g.nv g.nTotal) 0))) := by
  unfold DK.addEdge
  rw [containsForced_pure hF, hi.contains_eq hK he]
  simp only [Res.ok_bind]
  by_cases hm : e ∈ g.edgesOf
  · simp only [hm, decide_true, if_true]
    exact ⟨g, rfl, hc0m, le_refl _, Or.inl ⟨trivial, rfl⟩⟩
  · simp only [hm, decide_false, Bool.false_eq_true, if_false]
    have hl : e ∉ g.c0.live := fun hh => hm (List.mem_append_left _ hh)
    have hsz := hi.c0wf.size_eq
    have hmk' := hi.c0wf.marked_eq
    have hll := hi.c0wf.live_length
    split
    · rename_i hlt
      have hroom : g.c0.room S g.nTotal := by
        unfold C0.room
        rw [hi.c0nv]
        have : g.c0.nElements = g.c0.size := by omega
        omega
      obtain ⟨c', a1, a2, a3, a4, a5, a6⟩ := C0.insert_absent hi.c0wf hl hroom
      rw [a1]
      exact ⟨_, rfl, by simp only [a5]; exact hc0m, le_refl _,
        Or.inr ⟨not_false, Or.inr ⟨a3, by omega⟩⟩⟩
    · rename_i hge
      have hsum := totals_eq hK hi.val
      have hlen : g.edgesOf.length = g.c0.live.length + (flat K g.ks).length := by
        unfold edgesOf; simp
      obtain ⟨r, hr⟩ := selectLevel_some S (max g.nv g.nTotal) g.ks 0 (S.maxsz (max g.nv g.nTotal) 0)
        (g.nTotal + marks K g.ks) (by
          intro l hl
          have : l + 1 = RS := by rw [hl, hi.len]; simp
          rw [this, hT]; omega)
        (by intro hh; have := hi.len; rw [hh] at this; simp [RS] at this)
        (by rw [hsum]; omega)
      rw [hr]
      simp only
      rw [hi.c0wf.converted_eq]
      obtain ⟨c', b1, b2, b3, b4, b5, b6, b7⟩ := hi.c0wf.clean_ok
      simp only [Res.ok_bind, b1]
      refine ⟨_, rfl, b5, ?_, Or.inr ⟨not_false, Or.inl b3⟩⟩
      have hlt := (selectLevel_lt S _ _ _ _ _ hr).2
      rw [Nat.zero_add] at hlt
      have hnd : (g.c0.live ++ [e]).Nodup := by
        rw [List.nodup_append]
        exact ⟨hi.c0wf.live_nodup, by simp, by
          intro a ha b hb hab; simp at hb; exact hl (hb ▸ hab ▸ ha)⟩
      have hrg : ∀ e' ∈ g.c0.live ++ [e], InRange g.nv e' := by
        intro e' he'
        rcases List.mem_append.1 he' with h1 | h1
        · exact hi.range e' (List.mem_append_left _ h1)
        · simp at h1; exact h1 ▸ he
      have hz := mergeUpTo_marked hK (r + 1) _ g.ks (hK.build_valid _ _ hnd hrg) hi.val
        (hK.build_marked _ _ hnd hrg)
      show marks K ((mergeUpTo K (r + 1) _ g.ks).2.set r (some (mergeUpTo K (r + 1) _ g.ks).1)) ≤ _
      rw [mergeUpTo_snd, set_replicate_drop hlt, marks_append, marks_replicate, marks_some, hz]
      have := marks_drop (r + 1) g.ks
      omega

/-- `del_edge` of an edge outside the buffer: the buffer stays, and at most one more edge is marked. -/
theorem delEdge_marks (hK : K.Lawful) (hM : K.MarksOne) (S : Sizing) {g g' : DK K} (hi : g.Inv) {e : Edge}
    (he : InRange g.nv e) (hl : e ∉ g.c0.live) (hq : g.rebuilds S e = false) (hr : g.delEdge S e = .ok g') :
    g'.c0 = g.c0 ∧ marks K g'.ks ≤ marks K g.ks + (if e ∈ g.edgesOf then 1 else 0) := by
  obtain ⟨c, a1, _⟩ := hi.c0wf.erase_ok e
  unfold DK.delEdge at hr
  unfold DK.rebuilds at hq
  have hc : c = g.c0 := by
    have : g.c0.edgeLst e = none := by
      rw [a1] at hr
      unfold C0.erase at a1
      cases h : g.c0.edgeLst e with
      | none => rfl
      | some i =>
        rw [h] at a1
        simp only [hl, decide_false, Res.bind_eq_ok] at a1
        obtain ⟨_, _, _, _, h2⟩ := a1
        simp at h2
    unfold C0.erase at a1
    rw [this] at a1
    simp only [Res.ok.injEq, Prod.mk.injEq] at a1
    exact a1.2.symm
  rw [a1] at hr hq
  simp only [Res.ok_bind, hl, decide_false, Bool.false_eq_true, if_false] at hr hq
  rw [hq] at hr
  simp only [Bool.false_eq_true, if_false, Res.ok.injEq] at hr
  subst hr
  refine ⟨hc, ?_⟩
  show marks K (sweep K (eraseScan K e g.ks).2).2 ≤ _
  have h1 := eraseScan_marks hM he hi.val
  have h2 := sweep_marks (K := K) (ks := (eraseScan K e g.ks).2)
  have hnd := hi.nodup
  unfold edgesOf at hnd
  rw [List.nodup_append] at hnd
  have h3 := (eraseScan_spec hK he hi.val hnd.2.1).2.2.1
  have h4 : e ∈ g.edgesOf ↔ (eraseScan K e g.ks).1 = true := by
    rw [h3]; unfold edgesOf; rw [List.mem_append]
    exact ⟨fun hh => hh.resolve_left hl, Or.inr⟩
  by_cases hb : e ∈ g.edgesOf
  · rw [if_pos hb]; rw [if_pos (h4.1 hb)] at h1; omega
  · rw [if_neg hb]; rw [if_neg (fun h => hb (h4.2 h))] at h1; omega

/-- The number of marked edges that `del_edge` compares with the threshold. -/
theorem rebuilds_few (hK : K.Lawful) (hM : K.MarksOne) (S : Sizing) {g : DK K} (hi : g.Inv) {e : Edge}
    (he : InRange g.nv e) (h : ∀ k, k ≤ marks K g.ks + (if e ∈ g.edgesOf then 1 else 0) →
      S.rebuild k (if e ∈ g.edgesOf then decr g.nTotal else g.nTotal) = false) :
    g.rebuilds S e = false := by
  obtain ⟨c, a1, _⟩ := hi.c0wf.erase_ok e
  unfold DK.rebuilds
  rw [a1]
  by_cases hl : e ∈ g.c0.live
  · simp [hl]
  · simp only [hl, decide_false]
    have h1 := eraseScan_marks hM he hi.val
    have h2 := sweep_marks (K := K) (ks := (eraseScan K e g.ks).2)
    have hnd := hi.nodup
    unfold edgesOf at hnd
    rw [List.nodup_append] at hnd
    have h3 := (eraseScan_spec hK he hi.val hnd.2.1).2.2.1
    have h4 : e ∈ g.edgesOf ↔ (eraseScan K e g.ks).1 = true := by
      rw [h3]; unfold edgesOf; rw [List.mem_append]
      exact ⟨fun hh => hh.resolve_left hl, Or.inr⟩
    have h5 := h (sweep K (eraseScan K e g.ks).2).1 (by
      by_cases hb : e ∈ g.edgesOf
      · rw [if_pos hb]; rw [if_pos (h4.1 hb)] at h1; omega
      · rw [if_neg hb]; rw [if_neg (fun h => hb (h4.2 h))] at h1; omega)
    show S.rebuild (sweep K (eraseScan K e g.ks).2).1 (if (eraseScan K e g.ks).1 then decr g.nTotal else g.nTotal) = false
    rw [← h5]
    congr 1
    by_cases hb : e ∈ g.edgesOf
    · rw [if_pos hb, if_pos (h4.1 hb)]
    · rw [if_neg hb, if_neg (fun h => hb (h4.2 h))]

end DK
end DK2
