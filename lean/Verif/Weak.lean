import Verif.Hist
/-!
# The weak invariant: any behaviour of `adj_forced` allowed by its documentation

Without `ForcedPure` an edge may be stored twice; the structural invariant `WInv` still holds.
-/

namespace DK2
namespace DK
variable {K : K2Impl}

theorem eraseScan_weak (hK : K.Lawful) {n : Nat} {e : Edge} (he : InRange n e) :
    ∀ {ks : List (Option K.T)}, AllValid K n ks →
      AllValid K n (eraseScan K e ks).2 ∧ (eraseScan K e ks).2.length = ks.length ∧
      (∀ e', e' ∈ flat K (eraseScan K e ks).2 → e' ∈ flat K ks) ∧
      (∀ e', e' ≠ e → (e' ∈ flat K (eraseScan K e ks).2 ↔ e' ∈ flat K ks)) := by
  intro ks
  induction ks with
  | nil => intro h; simp [eraseScan, h]
  | cons o ks ih =>
    intro hv
    obtain ⟨i1, i2, i3, i4⟩ := ih hv.tail
    cases o with
    | none =>
      simp only [eraseScan, flat_none]
      refine ⟨?_, by simp [i2], i3, i4⟩
      intro t ht; simp at ht; exact i1 t ht
    | some t =>
      have hvt := hv.head
      have f1 := hK.erase_valid n t e hvt he
      have f3 := hK.erase_edges n t e hvt he
      simp only [eraseScan]
      split
      · refine ⟨?_, by simp, ?_, ?_⟩
        · intro t' ht'
          simp at ht'
          rcases ht' with rfl | h
          · exact f1
          · exact hv.tail t' h
        · intro e' h
          rw [flat_some, List.mem_append] at h ⊢
          rw [f3] at h
          rcases h with h | h
          · exact Or.inl h.1
          · exact Or.inr h
        · intro e' hne
          rw [flat_some, flat_some, List.mem_append, List.mem_append, f3]
          simp [hne]
      · refine ⟨?_, by simp [i2], ?_, ?_⟩
        · intro t' ht'
          simp at ht'
          rcases ht' with rfl | h
          · exact f1
          · exact i1 t' h
        · intro e' h
          rw [flat_some, List.mem_append] at h ⊢
          rw [f3] at h
          rcases h with h | h
          · exact Or.inl h.1
          · exact Or.inr (i3 e' h)
        · intro e' hne
          rw [flat_some, flat_some, List.mem_append, List.mem_append, f3, i4 e' hne]
          simp [hne]

theorem mergeAll_ok_none : ∀ {ks : List (Option K.T)} {r : Option K.T},
    mergeAll K none ks = .ok r → r = none ∧ flat K ks = [] := by
  intro ks
  induction ks with
  | nil => intro r h; simp [mergeAll] at h; exact ⟨h.symm, rfl⟩
  | cons o ks ih =>
    intro r h
    cases o with
    | none => simp only [mergeAll] at h; simpa using ih h
    | some t => simp [mergeAll] at h

theorem WInv.rebuild (hK : K.Lawful) (S : Sizing) {g g' : DK K} (h : g.WInv) (hnv : 2 ≤ g.nv)
    (hr : g.rebuild S = .ok g') :
    g'.WInv ∧ g'.nv = g.nv ∧ (∀ e', e' ≠ (1, 1) → (e' ∈ g'.edgesOf ↔ e' ∈ g.edgesOf)) := by
  have h11 : InRange g.nv (1, 1) := ⟨by simp; omega, by simp; omega⟩
  unfold DK.rebuild at hr
  rw [Res.bind_eq_ok] at hr
  obtain ⟨⟨oo, g1⟩, hprep, hr⟩ := hr
  rw [Res.bind_eq_ok] at hr
  obtain ⟨⟨tmp, c1⟩, hdrain, hr⟩ := hr
  rw [Res.bind_eq_ok] at hr
  obtain ⟨tmp', hmerge, hr⟩ := hr
  rw [Res.bind_eq_ok] at hr
  obtain ⟨ks, hks, hr⟩ := hr
  rw [wr_eq_ok] at hks
  obtain ⟨hi, rfl⟩ := hks
  simp only at hdrain hmerge hr
  have hp : g1.WInv ∧ g1.nv = g.nv ∧
      (∀ e', e' ≠ (1, 1) → (e' ∈ g1.edgesOf ↔ e' ∈ g.edgesOf)) := by
    unfold rebuildPrep at hprep
    split at hprep
    · rw [h.contains_eq hK h11] at hprep
      simp only [Res.ok_bind] at hprep
      rw [Res.bind_eq_ok] at hprep
      obtain ⟨g2, hadd, hp2⟩ := hprep
      simp only [Res.ok.injEq, Prod.mk.injEq] at hp2
      obtain ⟨rfl, rfl⟩ := hp2
      obtain ⟨a1, a2, a3⟩ := h.addEdge hK S h11 hadd
      exact ⟨a1, a2, fun e' he' => by rw [a3]; simp [he']⟩
    · simp only [Res.ok.injEq, Prod.mk.injEq] at hprep
      obtain ⟨rfl, rfl⟩ := hprep
      exact ⟨h, rfl, fun _ _ => Iff.rfl⟩
  obtain ⟨i1, i2, i3⟩ := hp
  have hi' : rebuildLevel S (max g.nv g.nTotal) g.nTotal < RS := by simpa using hi
  have h11' : InRange g1.nv (1, 1) := by rw [i2]; exact h11
  unfold rebuildDrain at hdrain
  split at hdrain
  · rw [i1.c0wf.converted_eq] at hdrain
    obtain ⟨c', b1, b2, b3, b4, b5, b6, b7⟩ := i1.c0wf.clean_ok
    simp only [Res.ok_bind, b1, Res.ok.injEq, Prod.mk.injEq] at hdrain
    obtain ⟨rfl, rfl⟩ := hdrain
    have hlr : ∀ e ∈ g1.c0.live, InRange g1.nv e := fun e he =>
      i1.range e (List.mem_append_left _ he)
    have hbv := hK.build_valid _ _ i1.c0wf.live_nodup hlr
    have hbe := hK.build_edges _ _ i1.c0wf.live_nodup hlr
    obtain ⟨t', m1, m2, m3⟩ := mergeAll_some hK g1.ks _ hbv i1.val
    rw [m1] at hmerge
    simp only [Res.ok.injEq] at hmerge
    subst hmerge
    have hed : ∀ e', e' ∈ K.edges t' ↔ e' ∈ g1.edgesOf := by
      intro e'
      rw [m3, hbe]; exact List.mem_append.symm
    have key : ∀ u : K.T, K.valid g1.nv u → (∀ e', e' ∈ K.edges u → e' ∈ g1.edgesOf) →
        (∀ e', e' ≠ (1, 1) → (e' ∈ K.edges u ↔ e' ∈ g1.edgesOf)) →
        ∀ gg : DK K, gg = { g1 with
          c0 := c'
          ks := (List.replicate RS (none : Option K.T)).set
            (rebuildLevel S (max g.nv g.nTotal) g.nTotal) (some u) } →
        gg.WInv ∧ gg.nv = g.nv ∧ (∀ e', e' ≠ (1, 1) → (e' ∈ gg.edgesOf ↔ e' ∈ g.edgesOf)) := by
      intro u hu hsub hiff gg hgg
      subst hgg
      refine ⟨⟨b2, by simp [b7, i1.c0nv], by simp, ?_, i1.maxR_lt, ?_⟩, i2, ?_⟩
      · intro t ht
        rw [mem_set_replicate ht]; exact hu
      · intro e' he'
        simp only [edgesOf, b3, List.nil_append, flat_set_replicate hi'] at he'
        exact i1.range e' (hsub e' he')
      · intro e' he'
        simp only [edgesOf, b3, List.nil_append, flat_set_replicate hi']
        rw [hiff e' he', i3 e' he']
        exact Iff.rfl
    cases oo with
    | true =>
      simp only [if_true, Res.ok.injEq] at hr
      exact key t' m2 (fun e' he' => (hed e').1 he') (fun e' _ => hed e') g' hr.symm
    | false =>
      simp only [Bool.false_eq_true, if_false, Res.ok.injEq] at hr
      rw [List.set_set] at hr
      have e1 := hK.erase_valid _ _ _ m2 h11'
      have e2 := hK.erase_edges _ _ _ m2 h11'
      exact key _ e1 (fun e' he' => (hed e').1 ((e2 e').1 he').1)
        (fun e' hne => by rw [e2, hed]; simp [hne]) g' hr.symm
  · simp only [Res.ok.injEq, Prod.mk.injEq] at hdrain
    obtain ⟨rfl, rfl⟩ := hdrain
    rename_i hsz
    obtain ⟨rfl, hfl⟩ := mergeAll_ok_none hmerge
    cases oo with
    | false => simp at hr
    | true =>
      simp only [if_true, Res.ok.injEq] at hr
      subst hr
      have hlive : g1.c0.live = [] := by
        have := i1.c0wf.size_eq
        exact List.length_eq_zero_iff.1 (by omega)
      have hset : ((List.replicate RS (none : Option K.T)).set
          (rebuildLevel S (max g.nv g.nTotal) g.nTotal) none) = List.replicate RS none := by
        rw [List.set_replicate_self]
      rw [hset]
      refine ⟨⟨i1.c0wf, i1.c0nv, by simp, ?_, i1.maxR_lt, ?_⟩, i2, ?_⟩
      · intro t ht; simp [List.mem_replicate] at ht
      · intro e' he'
        simp [edgesOf, hlive] at he'
      · intro e' he'
        rw [← i3 e' he']
        simp [edgesOf, hlive, hfl]

theorem WInv.delEdge (hK : K.Lawful) (S : Sizing) {g g' : DK K} (h : g.WInv) {e : Edge}
    (he : InRange g.nv e) (hnv : 2 ≤ g.nv) (hr : g.delEdge S e = .ok g') :
    g'.WInv ∧ g'.nv = g.nv ∧
    (∀ e', e' ≠ e → e' ≠ (1, 1) → (e' ∈ g'.edgesOf ↔ e' ∈ g.edgesOf)) := by
  obtain ⟨c', a1, a2, a3, a4, a5, a6⟩ := h.c0wf.erase_ok e
  unfold DK.delEdge at hr
  rw [a1] at hr
  simp only [Res.ok_bind] at hr
  by_cases hl : e ∈ g.c0.live
  · simp only [hl, decide_true, if_true, Res.ok.injEq] at hr
    subst hr
    refine ⟨⟨a2, by simp [a6, h.c0nv], h.len, h.val, h.maxR_lt, ?_⟩, rfl, ?_⟩
    · intro e' he'
      apply h.range e'
      simp only [edgesOf, a3, List.mem_append, List.mem_filter] at he' ⊢
      rcases he' with h1 | h1
      · exact Or.inl h1.1
      · exact Or.inr h1
    · intro e' hne _
      simp only [edgesOf, a3, List.mem_append, List.mem_filter]
      simp [hne]
  · simp only [hl, decide_false, Bool.false_eq_true, if_false] at hr
    have hfil : g.c0.live.filter (fun e' => decide (e' ≠ e)) = g.c0.live := by
      rw [List.filter_eq_self]
      intro a ha
      have : a ≠ e := fun hh => hl (hh ▸ ha)
      simpa using this
    obtain ⟨b1, b2, b3, b4⟩ := eraseScan_weak hK he h.val
    obtain ⟨d1, d2, d3, d4⟩ := sweep_spec hK b1
    generalize hga : (({ g with c0 := c' } : DK K).afterErase e) = a at hr
    have hw : a.2.WInv ∧ a.2.nv = g.nv ∧
        (∀ e', e' ≠ e → (e' ∈ a.2.edgesOf ↔ e' ∈ g.edgesOf)) := by
      subst hga
      refine ⟨⟨a2, by simp [DK.afterErase, a6, h.c0nv], ?_, d1, h.maxR_lt, ?_⟩, rfl, ?_⟩
      · simp only [DK.afterErase]; rw [d2, b2]; exact h.len
      · intro e' he'
        apply h.range e'
        simp only [DK.afterErase, edgesOf, a3, hfil, d3, List.mem_append] at he' ⊢
        rcases he' with h1 | h1
        · exact Or.inl h1
        · exact Or.inr (b3 e' h1)
      · intro e' hne
        simp only [DK.afterErase, edgesOf, a3, hfil, d3, List.mem_append, b4 e' hne]
    split at hr
    · obtain ⟨r1, r2, r3⟩ := hw.1.rebuild hK S (by rw [hw.2.1]; exact hnv) hr
      exact ⟨r1, by rw [r2, hw.2.1], fun e' h1 h2 => by rw [r3 e' h2, hw.2.2 e' h1]⟩
    · simp only [Res.ok.injEq] at hr
      subst hr
      exact ⟨hw.1, hw.2.1, fun e' h1 _ => hw.2.2 e' h1⟩

theorem run_weak (hK : K.Lawful) (S : Sizing) {n : Nat} :
    ∀ {ops : List Op} {g : DK K}, OpsInRange n ops → run K S n ops = .ok g →
      g.WInv ∧ g.nv = n ∧ n ≠ 1 := by
  intro ops
  induction ops using List.reverseRecOn with
  | nil =>
    intro g _ hr
    obtain ⟨rfl, h1⟩ := run_nil hr
    exact ⟨(init_inv S n).toWInv, rfl, h1⟩
  | append_singleton ops o ih =>
    intro g hops hr
    obtain ⟨g0, h1, h2⟩ := run_snoc_ok S hr
    obtain ⟨t, hnv, hn1⟩ := ih (OpsInRange.of_append hops) h1
    have hin := OpsInRange.last hops
    have h2n := inRange_two hin hn1
    cases o with
    | add e =>
      obtain ⟨a, b, _⟩ := t.addEdge hK S (e := e) (by rw [hnv]; exact hin) h2
      exact ⟨a, by rw [b, hnv], hn1⟩
    | del e =>
      obtain ⟨a, b, _⟩ := t.delEdge hK S (e := e) (by rw [hnv]; exact hin) (by omega) h2
      exact ⟨a, by rw [b, hnv], hn1⟩

end DK

/-! ## The reviving reference tree meets the contract -/

theorem refK2Forced_lawful : refK2Forced.Lawful where
  build_valid := refK2_lawful.build_valid
  build_edges := refK2_lawful.build_edges
  build_marked := refK2_lawful.build_marked
  empty_valid := refK2_lawful.empty_valid
  empty_edges := refK2_lawful.empty_edges
  edges_nodup := refK2_lawful.edges_nodup
  edges_range := refK2_lawful.edges_range
  total_eq := refK2_lawful.total_eq
  adj_iff := refK2_lawful.adj_iff
  neigh_iff := refK2_lawful.neigh_iff
  neigh_nodup := refK2_lawful.neigh_nodup
  erase_valid := refK2_lawful.erase_valid
  erase_fst := refK2_lawful.erase_fst
  erase_edges := refK2_lawful.erase_edges
  union_valid := refK2_lawful.union_valid
  union_edges := refK2_lawful.union_edges
  union_marked := refK2_lawful.union_marked
  forced_valid := by
    intro n t e h he
    simp only
    split
    · exact h
    · split
      · rename_i h1 _
        refine ⟨h.1, List.nodup_cons.2 ⟨h1, h.2.1⟩, ?_⟩
        intro e' he'
        rcases List.mem_cons.1 he' with rfl | h3
        · exact he
        · exact h.2.2 e' h3
      · exact h
  forced_true := by
    intro n t e _ _ h e'
    simp only at h ⊢
    split
    · rename_i h1
      constructor
      · exact Or.inl
      · rintro (h' | h')
        · exact h'
        · exact h' ▸ h1
    · rename_i h1
      rw [if_neg h1] at h
      split
      · simp [or_comm]
      · rename_i h2; simp [h2] at h
  forced_false := by
    intro n t e _ _ h
    simp only at h ⊢
    split
    · rename_i h1; simp [h1] at h
    · rename_i h1
      rw [if_neg h1] at h
      refine ⟨h1, ?_⟩
      split
      · rename_i h2; simp [h2] at h
      · rfl

end DK2
