import Verif.BgCall
/-!
# Proofs about `DKtree_background`: `del_edge`, `list_neighbour`
-/

namespace DK2

theorem C0.WF.erase_absent {c : C0} (h : c.WF) {e : Edge} (he : e ∉ c.live) : c.erase e = .ok (false, c) := by
  simp [C0.erase, h.not_mem_live.1 he]

namespace BG
open DK
variable {K : K2Impl}

theorem count_eq_of_mem {l l' : List Edge} (h : l.Nodup) (h' : l'.Nodup) {e : Edge} (hm : e ∈ l ↔ e ∈ l') :
    l.count e = l'.count e := by
  by_cases he : e ∈ l
  · rw [List.count_eq_one_of_mem h he, List.count_eq_one_of_mem h' (hm.1 he)]
  · rw [List.count_eq_zero_of_not_mem he, List.count_eq_zero_of_not_mem (fun hh => he (hm.2 hh))]

/-- The loop of `del_edge` removes one copy of the edge. -/
theorem eraseFirst_count (hK : K.Lawful) {n : Nat} {e : Edge} (he : InRange n e) :
    ∀ {ks : List (Option K.T)}, AllValid K n ks →
      AllValid K n (DKD.eraseFirst K e ks).2.2 ∧ (DKD.eraseFirst K e ks).2.2.length = ks.length ∧
      (∀ (i : Nat) (t : K.T), (DKD.eraseFirst K e ks).2.2[i]? = some (some t) → ∃ u, ks[i]? = some (some u)) ∧
      (∀ e', e' ≠ e → (flat K (DKD.eraseFirst K e ks).2.2).count e' = (flat K ks).count e') ∧
      (flat K (DKD.eraseFirst K e ks).2.2).count e + (if (DKD.eraseFirst K e ks).1 then 1 else 0) =
        (flat K ks).count e ∧
      (flat K (DKD.eraseFirst K e ks).2.2).length + (if (DKD.eraseFirst K e ks).1 then 1 else 0) =
        (flat K ks).length ∧
      ((DKD.eraseFirst K e ks).1 = true ↔ e ∈ flat K ks) := by
  intro ks
  induction ks with
  | nil => intro h; simp [DKD.eraseFirst, h]
  | cons o ks ih =>
    intro hv
    cases o with
    | none =>
      obtain ⟨i1, i2, i3, i4, i5, i6, i7⟩ := ih hv.tail
      simp only [DKD.eraseFirst, flat_none]
      refine ⟨?_, by simp [i2], ?_, i4, i5, i6, i7⟩
      · intro t ht; simp at ht; exact i1 t ht
      · intro i t hi
        cases i with
        | zero => simp at hi
        | succ i => simpa using i3 i t (by simpa using hi)
    | some t =>
      obtain ⟨i1, i2, i3, i4, i5, i6, i7⟩ := ih hv.tail
      have hvt := hv.head
      have f1 := hK.erase_valid n t e hvt he
      have f2 := hK.erase_fst n t e hvt he
      have f3 := hK.erase_edges n t e hvt he
      have f4 := hK.adj_iff n t e hvt he
      have f5 := hK.edges_nodup n _ f1
      have f5' := hK.edges_nodup n _ hvt
      have f6 := hK.total_eq n _ f1
      simp only [DKD.eraseFirst]
      by_cases hb : (K.erase t e).1 = true
      · have hmem : e ∈ K.edges t := f4.1 (f2 ▸ hb)
        have hlen : (K.edges (K.erase t e).2).length + 1 = (K.edges t).length :=
          length_remove f5' f5 f3 hmem
        have hce : (K.edges (K.erase t e).2).count e = 0 :=
          List.count_eq_zero_of_not_mem (fun hh => ((f3 e).1 hh).2 rfl)
        have hce' : (K.edges t).count e = 1 := List.count_eq_one_of_mem f5' hmem
        have hcn : ∀ e', e' ≠ e → (K.edges (K.erase t e).2).count e' = (K.edges t).count e' :=
          fun e' hne => count_eq_of_mem f5 f5' (by rw [f3 e']; exact ⟨fun h => h.1, fun h => ⟨h, hne⟩⟩)
        simp only [hb, if_true]
        split
        · rename_i hmk
          have hnil : K.edges (K.erase t e).2 = [] := by
            rw [← List.length_eq_zero_iff]; omega
          rw [hnil] at hlen hcn
          simp only [List.count_nil, List.length_nil] at hlen hcn
          refine ⟨?_, by simp, ?_, ?_, ?_, ?_, ?_⟩
          · intro u hu; simp at hu; exact hv.tail u hu
          · intro i u hi
            cases i with
            | zero => simp at hi
            | succ i => exact ⟨u, by simpa using hi⟩
          · intro e' hne; simp only [flat_none, flat_some, List.count_append, ← hcn e' hne]; omega
          · simp only [flat_none, flat_some, List.count_append, hce']; simp; omega
          · simp only [flat_none, flat_some, List.length_append]; simp; omega
          · simp [hmem]
        · refine ⟨?_, by simp, ?_, ?_, ?_, ?_, ?_⟩
          · intro u hu
            rcases List.mem_cons.1 hu with h1 | h1
            · cases h1; exact f1
            · exact hv.tail u h1
          · intro i u hi
            cases i with
            | zero => exact ⟨t, by simp⟩
            | succ i => exact ⟨u, by simpa using hi⟩
          · intro e' hne; simp only [flat_some, List.count_append, hcn e' hne]
          · simp only [flat_some, List.count_append, hce', hce]; simp; omega
          · simp only [flat_some, List.length_append]; simp; omega
          · simp [hmem]
      · have hnm : e ∉ K.edges t := fun hh => hb (f2 ▸ f4.2 hh)
        have hsame : ∀ e', e' ∈ K.edges (K.erase t e).2 ↔ e' ∈ K.edges t := by
          intro e'; rw [f3 e']
          exact ⟨fun h => h.1, fun h => ⟨h, fun hh => hnm (hh ▸ h)⟩⟩
        have hc : ∀ e', (K.edges (K.erase t e).2).count e' = (K.edges t).count e' :=
          fun e' => count_eq_of_mem f5 f5' (hsame e')
        have hl : (K.edges (K.erase t e).2).length = (K.edges t).length := length_eq_of_mem_iff f5 f5' hsame
        simp only [hb, if_false, Bool.false_eq_true]
        refine ⟨?_, by simp [i2], ?_, ?_, ?_, ?_, ?_⟩
        · intro u hu
          rcases List.mem_cons.1 hu with h1 | h1
          · cases h1; exact f1
          · exact i1 u h1
        · intro i u hi
          cases i with
          | zero => exact ⟨t, by simp⟩
          | succ i => simpa using i3 i u (by simpa using hi)
        · intro e' hne; simp only [flat_some, List.count_append, hc, i4 e' hne]
        · simp only [flat_some, List.count_append, hc]; omega
        · simp only [flat_some, List.length_append, hl]; omega
        · rw [i7]; simp [hnm]

/-- After `del_edge(e)`. -/
def DelPost (S : Sizing) (c : JC) (e : Edge) (s : BG K) (w : WPC K.T) : Prop :=
  ∃ i : (Edge → Prop) × (Edge → Prop), JJ S { c with G := i.1, V := i.2 } s w ∧
    (∀ e', e' ≠ e → (i.1 e' ↔ c.G e')) ∧ (i.1 e → c.G e ∧ c.D e)

theorem DelPost_stable (hK : K.Lawful) (S : Sizing) (c : JC) (e : Edge) :
    Stable (worker K S) (DelPost (K := K) S c e) := by
  rintro s w s' w' ⟨i, h1, h2⟩ hw
  exact ⟨i, JJ_stable hK S _ _ _ _ _ h1 hw, h2⟩

/-- What is left to insert again during a rebuild. -/
def Left (c : JC) (G : Edge → Prop) (es : List Edge) : Prop :=
  (∀ e ∈ es, InRange c.n e) ∧ ∀ e, ¬ c.D e → es.count e ≤ 1 ∧ (e ∈ es → ¬ G e)

theorem addAll_ok (hK : K.Lawful) (S : Sizing) (wv : Bool) (c : JC) : ∀ (es : List Edge) (G : Edge → Prop),
    Left c G es →
    Ok (worker K S) (good S c.tot) (c.tot ∧ c.cm) (addAll wv S es) (fun s w => ∃ V, JJ S { c with G := G, V := V } s w)
      (fun _ s w => ∃ V, JJ S { c with G := fun e => G e ∨ e ∈ es, V := V } s w) := by
  intro es
  induction es with
  | nil =>
    intro G _
    refine Ok.ret _ ?_ ?_
    · rintro s w s' w' ⟨V, h⟩ hw; exact ⟨V, JJ_stable hK S _ _ _ _ _ h hw⟩
    · rintro s w ⟨V, h⟩
      exact ⟨V, J.congr h rfl (by simp) (fun _ h => h) h.vis id⟩
  | cons a es ih =>
    intro G hL
    have hr := hL.1 a (by simp)
    refine Ok.bind (R := fun _ s w => ∃ V, JJ S { c with G := fun e => G e ∨ e = a, V := V } s w) _ ?_ ?_
    · refine Ok.exists _ (fun V => ?_)
      refine Ok.conseq _ (addEdge_ok hK S wv { c with G := G, V := V } hr) ?_
      rintro _ s w ⟨V', h, _, _⟩
      refine ⟨V', J.congr h rfl ?_ ?_ h.vis id⟩
      · intro e; simp only [JC.add]; tauto
      · rintro e (h1 | ⟨rfl, h1⟩)
        · exact h1
        · by_contra hD
          exact (hL.2 e hD).2 (by simp) h1
    · intro _
      refine Ok.conseq _ (ih (fun e => G e ∨ e = a) ?_) ?_
      · refine ⟨fun e he => hL.1 e (by simp [he]), fun e hD => ?_⟩
        obtain ⟨h1, h2⟩ := hL.2 e hD
        rw [List.count_cons] at h1
        refine ⟨by omega, ?_⟩
        rintro he (h3 | rfl)
        · exact h2 (by simp [he]) h3
        · have := List.count_pos_iff.2 he
          simp at h1; omega
      · rintro _ s w ⟨V, h⟩
        exact ⟨V, J.congr h rfl (by intro e; simp; tauto) (fun _ h => h) h.vis id⟩

theorem JJ.eraseBuf {S : Sizing} {c : JC} (hc : ¬ c.tot) {s s' : BG K} {w : WPC K.T} {b : Bool}
    (h : JJ S c s w) {e : Edge} (hs : BG.eraseBuf e s = .ok (s', b)) :
    (b = true → DelPost S c e s' w) ∧ (b = false → JJ S c s' w ∧ e ∉ s'.g.c0.live) := by
  by_cases hm : e ∈ s.g.c0.live
  · obtain ⟨c', a1, a2, a3, a4, a5, a6⟩ := h.c0wf.erase_ok e
    unfold BG.eraseBuf at hs
    rw [a1] at hs
    simp only [hm, decide_true, Res.ok_bind, if_true] at hs
    cases hs
    refine ⟨fun _ => ?_, fun hh => by cases hh⟩
    have hp : pend { s with g := { s.g with c0 := c', nTotal := decr s.g.nTotal } } w = pend s w := by
      cases w <;> rfl
    have hcn : ∀ e', (stored c'.live { s with g := { s.g with c0 := c', nTotal := decr s.g.nTotal } } w).count e' ≤
        (stored s.g.c0.live s w).count e' := by
      intro e'
      unfold stored
      rw [hp, a3]
      simp only [List.count_append]
      have := List.Sublist.count_le e' (List.filter_sublist (l := s.g.c0.live) (p := fun e' => decide (e' ≠ e)))
      omega
    have hlen : (stored c'.live { s with g := { s.g with c0 := c', nTotal := decr s.g.nTotal } } w).length + 1 =
        (stored s.g.c0.live s w).length := by
      unfold stored
      rw [hp, a3]
      simp only [List.length_append]
      have := length_filter_ne h.c0wf.live_nodup hm
      omega
    refine ⟨(fun e' => e' ∈ stored c'.live { s with g := { s.g with c0 := c', nTotal := decr s.g.nTotal } } w,
      fun _ => False), ?_, ?_⟩
    · refine ⟨a2, by simp only [a6]; exact h.c0nv, h.nv, h.run, h.len, h.val, h.above, h.maxR, ?_, ?_, h.cvn,
        fun _ => Iff.rfl, fun e' he' => Nat.le_trans (hcn e') (h.one e' he'), ?_, fun ht => absurd ht hc, ?_,
        fun _ hh => absurd hh id, fun ht => absurd ht hc⟩
      · intro e' he'
        simp only [a3] at he'
        exact h.rangeC e' (List.mem_filter.1 he').1
      · have := h.stage; cases w <;> exact this
      · intro hD
        have h0 : (stored s.g.c0.live s w).length = s.g.nTotal := h.num hD
        have hd : decr s.g.nTotal = s.g.nTotal - 1 := by unfold decr; rw [if_neg (by omega)]
        show (stored c'.live _ w).length = decr s.g.nTotal
        rw [hd, ← h0, ← hlen]
        rfl
      · intro hn
        have hs := h.snap hn
        exact ⟨hs.val, hs.above, by rw [hp]; exact hs.sub, hs.le⟩
    · constructor
      · intro e' hne
        rw [h.mem e']
        simp only [stored, hp, a3]
        rw [List.mem_append, List.mem_append (s := s.g.c0.live), List.mem_filter]
        simp [hne]
      · intro hm'
        have hx : e ∈ pend s w ++ flat K s.g.ks := by
          simp only [stored, hp, a3] at hm'
          rw [List.mem_append, List.mem_filter] at hm'
          simpa using hm'
        refine ⟨(h.mem e).2 ?_, ?_⟩
        · unfold stored; rw [List.mem_append]; exact Or.inl hm
        · by_contra hD
          have h1 := h.one e hD
          unfold stored at h1
          rw [List.count_append, List.count_eq_one_of_mem h.c0wf.live_nodup hm] at h1
          have := List.count_pos_iff.2 hx
          omega
  · unfold BG.eraseBuf at hs
    rw [h.c0wf.erase_absent hm] at hs
    simp only [Res.ok_bind] at hs
    cases hs
    exact ⟨fun hh => (by cases hh), fun _ => ⟨h, hm⟩⟩

theorem flat_elim (ks : List (Option K.T)) : ks.flatMap (fun o => o.elim [] K.edges) = flat K ks := by
  unfold flat
  congr 1
  funext o
  cases o <;> rfl

theorem JJ.eraseLevels (hK : K.Lawful) {S : Sizing} {c : JC} (hc : ¬ c.tot) {s s' : BG K} {w : WPC K.T}
    {es : List Edge} (h : JJ S c s w) (hn : s.needs = false) {e : Edge} (he : InRange c.n e)
    (hl : e ∉ s.g.c0.live) (hs : BG.eraseLevels S e s = .ok (s', es)) :
    ∃ G, (∃ V, JJ S { c with G := G, V := V } s' w) ∧ Left c G es ∧
      (∀ e', e' ≠ e → ((G e' ∨ e' ∈ es) ↔ c.G e')) ∧ ((G e ∨ e ∈ es) → c.G e ∧ c.D e) := by
  obtain ⟨i1, i2, i3, i4, i5, i6, i7⟩ := eraseFirst_count hK he h.val
  obtain ⟨hw, hpd, hcv⟩ := h.stage.idle hn
  have hab : ∀ (i : Nat) (t : K.T), (DKD.eraseFirst K e s.g.ks).2.2[i]? = some (some t) → i ≤ s.g.maxR := by
    intro i t hi
    obtain ⟨u, hu⟩ := i3 i t hi
    exact h.above i u hu
  -- copies in the levels after erasing
  have hcnt : ∀ e', (s.g.c0.live ++ flat K (DKD.eraseFirst K e s.g.ks).2.2).count e' ≤
      (stored s.g.c0.live s w).count e' := by
    intro e'
    unfold stored
    rw [hpd, List.nil_append, List.count_append, List.count_append]
    by_cases hee : e' = e
    · subst hee; omega
    · rw [i4 e' hee]
  have hmem1 : ∀ e', e' ≠ e →
      (e' ∈ s.g.c0.live ++ flat K (DKD.eraseFirst K e s.g.ks).2.2 ↔ c.G e') := by
    intro e' hee
    rw [h.mem e', stored, hpd, List.nil_append]
    have := i4 e' hee
    rw [List.mem_append, List.mem_append, ← List.count_pos_iff (l := flat K s.g.ks), ← this, List.count_pos_iff]
  have hmem2 : e ∈ s.g.c0.live ++ flat K (DKD.eraseFirst K e s.g.ks).2.2 → c.G e ∧ c.D e := by
    intro hh
    have hh : e ∈ flat K (DKD.eraseFirst K e s.g.ks).2.2 := by
      rcases List.mem_append.1 hh with h1 | h1
      · exact absurd h1 hl
      · exact h1
    have h2 := List.count_pos_iff.2 hh
    have h3 : e ∈ flat K s.g.ks := List.count_pos_iff.1 (by omega)
    have hf := i7.2 h3
    rw [if_pos hf] at i5
    refine ⟨(h.mem e).2 ?_, ?_⟩
    · rw [stored, hpd, List.nil_append, List.mem_append]; exact Or.inr h3
    · by_contra hD
      have h1 := h.one e hD
      unfold stored at h1
      rw [hpd, List.nil_append, List.count_append] at h1
      omega
  have hrange : ∀ e' ∈ flat K (DKD.eraseFirst K e s.g.ks).2.2, InRange c.n e' := by
    intro e' he'
    obtain ⟨t, ht, het⟩ := mem_flat.1 he'
    exact hK.edges_range c.n t (i1 t ht) e' het
  have hlen : (∀ e, ¬ c.D e) → (s.g.c0.live ++ flat K (DKD.eraseFirst K e s.g.ks).2.2).length =
      (if (DKD.eraseFirst K e s.g.ks).1 then decr s.g.nTotal else s.g.nTotal) := by
    intro hD
    have h1 := h.num hD
    unfold stored at h1
    rw [hpd, List.nil_append, List.length_append] at h1
    rw [List.length_append]
    by_cases hf : (DKD.eraseFirst K e s.g.ks).1 = true
    · rw [if_pos hf] at i6 ⊢
      unfold decr
      rw [if_neg (by omega)]; omega
    · rw [if_neg hf] at i6 ⊢; omega
  unfold BG.eraseLevels at hs
  dsimp only at hs
  by_cases hreb : S.rebuild (DKD.afterErase s.g e).1 (DKD.afterErase s.g e).2.nTotal = true
  · rw [if_pos hreb] at hs
    cases hs
    dsimp only [DKD.afterErase]
    have htk : flat K ((DKD.eraseFirst K e s.g.ks).2.2.take (s.g.maxR + 1)) =
        flat K (DKD.eraseFirst K e s.g.ks).2.2 :=
      take_flat (g := { s.g with ks := (DKD.eraseFirst K e s.g.ks).2.2 }) hab
    have hnone : ∀ (i : Nat) (o : Option K.T), ((DKD.eraseFirst K e s.g.ks).2.2.mapIdx
        (fun i o => if i ≤ s.g.maxR then none else o))[i]? = some o → o = none := by
      intro i o hi
      rw [List.getElem?_mapIdx] at hi
      cases hg : (DKD.eraseFirst K e s.g.ks).2.2[i]? with
      | none => rw [hg] at hi; simp at hi
      | some p =>
        rw [hg] at hi
        simp only [Option.map_some, Option.some.injEq] at hi
        split at hi
        · exact hi.symm
        · cases p with
          | none => exact hi.symm
          | some t => have := hab i t hg; omega
    have hfl : flat K ((DKD.eraseFirst K e s.g.ks).2.2.mapIdx
        (fun i o => if i ≤ s.g.maxR then none else o)) = [] := by
      rw [List.eq_nil_iff_forall_not_mem]
      intro e' he'
      obtain ⟨t, ht, _⟩ := mem_flat.1 he'
      obtain ⟨i, hi⟩ := List.getElem?_of_mem ht
      have := hnone i _ hi
      cases this
    rw [flat_elim, htk]
    refine ⟨fun e' => e' ∈ s.g.c0.live, ⟨fun _ => False, ?_⟩, ⟨hrange, ?_⟩, ?_⟩
    · have hst : ∀ s' : BG K, s'.g.ks = (DKD.eraseFirst K e s.g.ks).2.2.mapIdx
          (fun i o => if i ≤ s.g.maxR then none else o) → s'.needs = false →
          stored s.g.c0.live s' w = s.g.c0.live := by
        intro s' h1 h2
        unfold stored
        rw [h1, hfl]
        rcases hw with rfl | rfl <;> simp [pend, h2]
      refine ⟨h.c0wf, h.c0nv, h.nv, h.run, by simp [i2, h.len], ?_, ?_, by simp [RS], h.rangeC, ?_, h.cvn, ?_, ?_, ?_,
        fun ht => absurd ht hc, fun hh => by simp [hn] at hh, fun _ hh => absurd hh id, fun ht => absurd ht hc⟩
      · intro t ht
        obtain ⟨i, hi⟩ := List.getElem?_of_mem ht
        have := hnone i _ hi
        cases this
      · intro i t hi
        have := hnone i _ hi
        cases this
      · have := h.stage; rcases hw with rfl | rfl <;> exact this
      · intro e'; exact iff_of_eq (congrArg (e' ∈ ·) (hst _ (by rfl) (by exact hn)).symm)
      · intro e' he'
        refine Nat.le_trans (Nat.le_of_eq (congrArg (List.count e') (hst _ (by rfl) (by exact hn)))) ?_
        exact List.nodup_iff_count_le_one.1 h.c0wf.live_nodup e'
      · intro _; exact (congrArg List.length (hst _ (by rfl) (by exact hn))).trans h.c0wf.size_eq.symm
    · intro e' hD
      have h1 := hcnt e'
      have h2 := h.one e' hD
      rw [List.count_append] at h1
      refine ⟨by omega, fun h3 h4 => ?_⟩
      have := List.count_pos_iff.2 h3
      have := List.count_pos_iff.2 h4
      omega
    · exact ⟨fun e' hne => by rw [← List.mem_append]; exact hmem1 e' hne,
        by rw [← List.mem_append]; exact hmem2⟩
  · rw [if_neg hreb] at hs
    cases hs
    dsimp only [DKD.afterErase]
    have hst : ∀ s' : BG K, s'.g.ks = (DKD.eraseFirst K e s.g.ks).2.2 → s'.needs = false →
        stored s.g.c0.live s' w = s.g.c0.live ++ flat K (DKD.eraseFirst K e s.g.ks).2.2 := by
      intro s' h1 h2
      unfold stored
      rw [h1]
      rcases hw with rfl | rfl <;> simp [pend, h2]
    refine ⟨fun e' => e' ∈ s.g.c0.live ++ flat K (DKD.eraseFirst K e s.g.ks).2.2, ⟨fun _ => False, ?_⟩,
      ⟨by simp, by simp⟩, ?_⟩
    · refine ⟨h.c0wf, h.c0nv, h.nv, h.run, by simp [i2, h.len], i1, hab, h.maxR, h.rangeC, ?_, h.cvn, ?_, ?_, ?_,
        fun ht => absurd ht hc, fun hh => by simp [hn] at hh, fun _ hh => absurd hh id, fun ht => absurd ht hc⟩
      · have := h.stage; rcases hw with rfl | rfl <;> exact this
      · intro e'; exact iff_of_eq (congrArg (e' ∈ ·) (hst _ (by rfl) (by exact hn)).symm)
      · intro e' he'
        refine Nat.le_trans (Nat.le_of_eq (congrArg (List.count e') (hst _ (by rfl) (by exact hn)))) ?_
        exact Nat.le_trans (hcnt e') (h.one e' he')
      · intro hD; exact (congrArg List.length (hst _ (by rfl) (by exact hn))).trans (hlen hD)
    · exact ⟨fun e' hne => by simpa using hmem1 e' hne, by simpa using hmem2⟩

theorem good_erased {S : Sizing} {c : JC} {e : Edge} {b : Bool} {s : BG K} {w : WPC K.T}
    (h : (b = true → DelPost S c e s w) ∧ (b = false → JJ S c s w ∧ e ∉ s.g.c0.live)) : good S c.tot s w := by
  cases b with
  | true => obtain ⟨i, h, _⟩ := h.1 rfl; exact good_intro h id
  | false => exact good_intro (h.2 rfl).1 id

section
variable (hK : K.Lawful) (S : Sizing)
include hK

theorem delEdge_ok (wv : Bool) (c : JC) (hc : ¬ c.tot) {e : Edge} (he : InRange c.n e) :
    Ok (worker K S) (good S c.tot) (c.tot ∧ c.cm) (delEdge wv S e) (JJ S c) (fun _ s w => DelPost S c e s w) := by
  refine Ok.bind (R := fun b s w => (b = true → DelPost S c e s w) ∧
    (b = false → JJ S c s w ∧ e ∉ s.g.c0.live)) _ ?_ ?_
  · refine Ok.act _ (JJ_stable hK S c) (fun _ w _ => no_conflict_private (by simp) w) (fun ht => absurd ht.1 hc) ?_ ?_
      (hqi := fun _ _ _ h => good_erased h)
    · intro s w s' b h hs; exact h.eraseBuf hc hs
    · rintro b s w s' w' ⟨h1, h2⟩ hw
      exact ⟨fun hb => DelPost_stable hK S c e _ _ _ _ (h1 hb) hw,
        fun hb => JJ_live_stable hK S c (fun l => e ∉ l) _ _ _ _ (h2 hb) hw⟩
  · intro b
    have hst : Stable (worker K S) (fun s w => (b = true → DelPost S c e s w) ∧
        (b = false → JJ S c s w ∧ e ∉ s.g.c0.live)) := by
      rintro s w s' w' ⟨h1, h2⟩ hw
      exact ⟨fun hb => DelPost_stable hK S c e _ _ _ _ (h1 hb) hw,
        fun hb => JJ_live_stable hK S c (fun l => e ∉ l) _ _ _ _ (h2 hb) hw⟩
    cases b with
    | true =>
      rw [if_pos rfl]
      exact Ok.ret _ hst (fun _ _ h => h.1 rfl) (fun _ _ h => good_erased h)
    | false =>
      rw [if_neg Bool.false_ne_true]
      refine Ok.wait _ hst (P' := fun s w => (JJ S c s w ∧ e ∉ s.g.c0.live) ∧ s.needs = false) ?_ ?_
        (fun _ _ h => good_erased h)
      · rintro s w ⟨_, h⟩ hn
        exact ⟨h rfl, by simpa using hn⟩
      · refine Ok.bind (R := fun es s w => ∃ G, ((∃ V, JJ S { c with G := G, V := V } s w) ∧ Left c G es ∧
          (∀ e', e' ≠ e → ((G e' ∨ e' ∈ es) ↔ c.G e')) ∧ ((G e ∨ e ∈ es) → c.G e ∧ c.D e))) _ ?_ ?_
        · refine Ok.act _ ?_ ?_ (fun ht => absurd ht.1 hc) ?_ ?_
          · rintro s w s' w' ⟨h, hn⟩ hw
            exact ⟨JJ_live_stable hK S c (fun l => e ∉ l) _ _ _ _ h hw, (wstep_frame hw).2.2.2.2.2.2 hn⟩
          · rintro s w ⟨⟨h, _⟩, hn⟩; exact no_conflict_idle (h.stage.idle hn).1
          · rintro s w s' es ⟨⟨h, hl⟩, hn⟩ hs
            exact h.eraseLevels hK hc hn he hl hs
          · rintro es s w s' w' ⟨G, ⟨V, h⟩, h1, h2⟩ hw
            exact ⟨G, ⟨V, JJ_stable hK S _ _ _ _ _ h hw⟩, h1, h2⟩
        · intro es
          refine Ok.exists _ (fun G => ?_)
          by_cases hL : Left c G es ∧ (∀ e', e' ≠ e → ((G e' ∨ e' ∈ es) ↔ c.G e')) ∧ ((G e ∨ e ∈ es) → c.G e ∧ c.D e)
          · refine Ok.pre _ (P := fun s w => ∃ V, JJ S { c with G := G, V := V } s w) ?_ ?_ (fun _ _ h => h.1)
            · refine Ok.conseq _ (addAll_ok hK S wv c es G hL.1) ?_
              rintro _ s w ⟨V, h⟩
              exact ⟨(fun e' => G e' ∨ e' ∈ es, V), h, hL.2⟩
            · rintro s w s' w' ⟨⟨V, h⟩, h1, h2⟩ hw
              exact ⟨⟨V, JJ_stable hK S _ _ _ _ _ h hw⟩, h1, h2⟩
          · exact Ok.absurd _ (fun s w h => hL ⟨h.2.1, h.2.2⟩)

end

end BG
end DK2
