import Verif.PruneDelay
/-!
# C89, C90: `DKtree_delay` with rare deletions
-/

namespace DK2

open DK

variable {K : K2Impl}

namespace DKD

/-- The graph is the recorded one, few edges are marked, the buffer holds recent edges only, and so does (in part) the
tree that the pending merge reads next. -/
structure Kept (n B : Nat) (d : DKD K) (w : Win) : Prop where
  tr : DTrack d (fun e => e ∈ w.present)
  nd : w.present.Nodup
  nv : d.g.nv = n
  rare : w.Rare
  few : marks K d.g.ks ≤ w.dels
  above : d.g.NoneAbove
  fin : d.ui ≤ d.ufinal → d.ufinal ≤ d.g.maxR ∨ ∀ t, some t ∉ d.g.ks
  src : d.ui ≤ d.ufinal → (∃ x j, d.Carries x ∧ j + d.rem ≤ 8 ∧ x ∈ w.log.take j) ∨
    (RS ≤ d.uprev ∧ ∀ t, some t ∉ d.g.ks)
  bud : d.rem = 0 ∨ d.rem + d.g.c0.live.length ≤ 7
  calm : Calm B d.g w

theorem Kept.cnt {n B : Nat} {d : DKD K} {w : Win} (h : Kept n B d w) : d.g.nTotal = w.present.length := by
  rw [h.tr.cnt]
  exact length_eq_of_mem_iff h.tr.inv.inv.nodup h.nd h.tr.mem

/-- The merge step at the start of `add_edge`. -/
theorem Kept.pre (hK : K.Lawful) {n B : Nat} {d : DKD K} {w : Win} (h : Kept n B d w) :
    ∃ d', d.pre = .ok d' ∧ Kept n B d' w ∧ (d'.rem = 0 ∨ d'.rem + d'.g.c0.live.length ≤ 6) ∧
      (d'.ui ≤ d'.ufinal → ∃ x j, d'.Carries x ∧ j + d'.rem ≤ 7 ∧ x ∈ w.log.take j) := by
  by_cases hw : d.ufinal < d.ui
  · exact ⟨d, by simp [DKD.pre, workDone, hw], h, Or.inl (by unfold rem; omega), fun _ => by omega⟩
  · have hu : d.ui ≤ d.ufinal := by omega
    have hsrc : d.Source := by
      rcases h.src hu with ⟨x, j, h1, _⟩ | ⟨h1, h2⟩
      · exact h1.source
      · exact Or.inr ⟨h1, Or.inr h2⟩
    have hi := h.tr.inv
    obtain ⟨d', h1⟩ := unionDelay_ok hi.inv.len (hi.fin hu) hu hsrc
    obtain ⟨u, u1, u2, u3, u4, u5, u6⟩ := hi.unionDelay hK hu h1
    have hv : AllValid K d.g.nv d.slots := allValid_slots.2 ⟨hi.inv.val, by simp [hi.tmp]⟩
    obtain ⟨f1, f2⟩ := unionDelay_few hK hi.inv.len hv (hi.fin hu) hu hi.prev h1
    rw [marks_slots_none hi.tmp, marks_slots_none u1.tmp] at f1
    have hrem : d'.rem + 1 ≤ d.rem ∨ d'.rem = 0 := by
      have := u.ui; have := u.fin; unfold rem; omega
    have hbud : d'.rem = 0 ∨ d'.rem + d'.g.c0.live.length ≤ 6 := by
      rw [u4]
      rcases hrem with h2 | h2
      · rcases h.bud with h3 | h3
        · omega
        · right; omega
      · exact Or.inl h2
    have hempty : (∀ t, some t ∉ d.g.ks) → (∀ t, some t ∉ d'.g.ks) ∧ d'.ufinal < d'.ui := by
      intro hn
      have hp : RS ≤ d.uprev := by
        rcases hsrc with ⟨_, t, ht⟩ | ⟨h2, _⟩
        · exact absurd (List.mem_of_getElem? ht) (hn t)
        · exact h2
      exact unionLoop_empty _ d d' hn hi.tmp hp (by omega) h1
    have hsrc' : d'.ui ≤ d'.ufinal → ∃ x j, d'.Carries x ∧ j + d'.rem ≤ 7 ∧ x ∈ w.log.take j := by
      intro hu'
      rcases h.src hu with ⟨x, j, q1, q2, q3⟩ | ⟨q1, q2⟩
      · refine ⟨x, j, (f2 x q1).resolve_left (by omega), ?_, q3⟩
        rcases hrem with h2 | h2
        · omega
        · unfold rem at h2; omega
      · have := (hempty q2).2; omega
    refine ⟨d', by simp [DKD.pre, workDone, hw, h1], ⟨⟨u1, ?_, ?_⟩, h.nd, by rw [u3]; exact h.nv, h.rare,
      le_trans f1 h.few, ?_, ?_, ?_, ?_, ⟨?_, ?_, ?_, ?_⟩⟩, hbud, hsrc'⟩
    · intro e; rw [u2]; exact h.tr.mem e
    · rw [u5, h.tr.cnt]
      exact length_eq_of_mem_iff hi.inv.nodup u1.inv.nodup (fun e => (u2 e).symm)
    · intro i t hi
      rcases h.fin hu with h2 | h2
      · rcases u.above i t hi with h3 | h3
        · rw [u6]; omega
        · rw [u6]; exact h.above i t h3
      · exact absurd (List.mem_of_getElem? hi) ((hempty h2).1 t)
    · intro hu'
      rcases h.fin hu with h2 | h2
      · left; rw [u.fin, u6]; exact h2
      · have := (hempty h2).2; omega
    · intro hu'
      obtain ⟨x, j, q1, q2, q3⟩ := hsrc' hu'
      exact Or.inl ⟨x, j, q1, by omega, q3⟩
    · omega
    · rw [u4]; exact h.calm.c0m
    · rw [u4]; exact h.calm.len
    · rw [u4]; exact h.calm.recent
    · intro t ht
      exact unionLoop_ne hK _ hv (slots_ne hi.tmp h.calm.ne) h1 t (List.mem_append_left _ ht)

/-- `add_edge` in a settled history returns, in both builds. -/
theorem Kept.addEdge (hK : K.Lawful) {S : Sizing} {X : Nat} (hS : S.Calibrated X) {n B M : Nat} (hn : 162 ≤ n)
    (hB : ∀ k, k ≤ M → S.maxsz (max n k) 0 ≤ B) {d : DKD K} {w : Win} (h : Kept n B d w)
    (hw : w.present.length ≤ M) {e : Edge} (he : InRange n e) :
    ∃ d', (∀ nd, d.addEdge nd S e = .ok d') ∧ Kept n B d' (w.step (.add e)) := by
  obtain ⟨d1, p0, p1, p5, p7⟩ := h.pre hK
  have hi := p1.tr.inv
  have he1 : InRange d1.g.nv e := by rw [p1.nv]; exact he
  have hcont := hi.inv.contains_eq hK he1
  have hrun : ∀ nd, d.addEdge nd S e = (if e ∈ d1.g.edgesOf then .ok d1
      else if d1.g.c0.size < S.maxsz (max d1.g.nv d1.g.nTotal) 0 then do
        let c ← d1.g.c0.insert S e d1.g.nTotal
        .ok { d1 with g := { d1.g with c0 := c, nTotal := d1.g.nTotal + 1 } }
      else if d1.workDone then d1.flush S e
      else if nd then .ok { d1 with g := { d1.g with nTotal := d1.g.nTotal + 1 } } else .abort) := by
    intro nd
    unfold DKD.addEdge
    rw [p0]
    simp only [Res.ok_bind]
    unfold DKD.contains
    rw [hcont]
    by_cases hm : e ∈ d1.g.edgesOf <;> simp [hm]
  have hsz := hi.inv.c0wf.size_eq
  have hmk := hi.inv.c0wf.marked_eq
  have hll := hi.inv.c0wf.live_length
  have hc0m := p1.calm.c0m
  have hrare := p1.rare
  unfold Win.Rare at hrare
  have hfew := p1.few
  have hcnt := p1.cnt
  by_cases hm : e ∈ d1.g.edgesOf
  · simp only [if_pos hm] at hrun
    have hm' : e ∈ w.present := (p1.tr.mem e).1 hm
    refine ⟨d1, hrun, ?_⟩
    simp only [Win.step, if_pos hm']
    exact p1
  · have hm' : e ∉ w.present := fun hh => hm ((p1.tr.mem e).2 hh)
    simp only [if_neg hm] at hrun
    have hl : e ∉ d1.g.c0.live := fun hh => hm (List.mem_append_left _ hh)
    have hstep : w.step (.add e) = ⟨e :: w.present, e :: w.log, w.dels⟩ := by simp only [Win.step, if_neg hm']
    obtain ⟨w1, w2⟩ := present_step h.nd (.add e)
    -- what remains to be shown of the state that `add_edge` returns
    have hfin : ∀ d', (∀ nd, d.addEdge nd S e = .ok d') → marks K d'.g.ks ≤ w.dels → d'.g.NoneAbove →
        (d'.ui ≤ d'.ufinal → d'.ufinal ≤ d'.g.maxR ∨ ∀ t, some t ∉ d'.g.ks) →
        (d'.ui ≤ d'.ufinal → ∃ x j, d'.Carries x ∧ j + d'.rem ≤ 8 ∧ x ∈ (e :: w.log).take j) →
        (d'.rem = 0 ∨ d'.rem + d'.g.c0.live.length ≤ 7) → d'.g.c0.marked = 0 → d'.g.c0.live.length ≤ B →
        (∀ x ∈ d'.g.c0.live, x ∈ (e :: w.log).take d'.g.c0.live.length) →
        ∃ d', (∀ nd, d.addEdge nd S e = .ok d') ∧ Kept n B d' (w.step (.add e)) := by
      intro d' hr a1 a2 a3 a4 a5 a6 a7 a8
      obtain ⟨t1, t2⟩ := h.tr.step hK S (o := .add e) (by rw [h.nv]; exact he) (hr false)
      refine ⟨d', hr, ⟨⟨t1.inv, ?_, t1.cnt⟩, w1, by rw [t2, h.nv], ?_, ?_, a2, a3, ?_, a5, ⟨a6, a7, ?_, ?_⟩⟩⟩
      · intro e'; rw [t1.mem, w2]
      · rw [hstep]; unfold Win.Rare; simp only [List.length_cons]; omega
      · rw [hstep]; exact a1
      · rw [hstep]; exact fun hu => Or.inl (a4 hu)
      · rw [hstep]; exact a8
      · exact addEdge_ne hK true S h.tr.inv h.calm.ne (by rw [h.nv]; exact he) (hr true)
    by_cases hlt : d1.g.c0.size < S.maxsz (max d1.g.nv d1.g.nTotal) 0
    · simp only [if_pos hlt] at hrun
      have hroom : d1.g.c0.room S d1.g.nTotal := by
        unfold C0.room
        rw [hi.inv.c0nv]
        have : d1.g.c0.nElements = d1.g.c0.size := by omega
        omega
      obtain ⟨c', a1, a2, a3, a4, a5, a6⟩ := C0.insert_absent hi.inv.c0wf hl hroom
      simp only [a1, Res.ok_bind] at hrun
      have hlen : c'.live.length = d1.g.c0.live.length + 1 := by rw [a3]; simp
      refine hfin _ hrun hfew p1.above p1.fin ?_ ?_ (by simp only [a5]; exact hc0m) ?_ ?_
      · intro hu
        obtain ⟨x, j, q1, q2, q3⟩ := p7 hu
        refine ⟨x, j + 1, q1, ?_, ?_⟩
        · show j + 1 + d1.rem ≤ 8
          omega
        · rw [List.take_succ_cons]; exact List.mem_cons_of_mem _ q3
      · show d1.rem = 0 ∨ d1.rem + c'.live.length ≤ 7
        rw [hlen]; omega
      · show c'.live.length ≤ B
        have := hB w.present.length hw
        rw [p1.nv, hcnt] at hlt
        omega
      · show ∀ x ∈ c'.live, x ∈ (e :: w.log).take c'.live.length
        intro x hx
        rw [hlen, List.take_succ_cons]
        rw [a3] at hx
        rcases List.mem_append.1 hx with h1 | h1
        · exact List.mem_cons_of_mem _ (p1.calm.recent x h1)
        · simp at h1; rw [h1]; exact List.mem_cons_self
    · have hge := hlt
      simp only [if_neg hlt] at hrun
      by_cases hwd : d1.workDone = true
      · simp only [if_pos hwd] at hrun
        have hsum := totals_eq hK hi.inv.val
        have hlen : d1.g.edgesOf.length = d1.g.c0.live.length + (flat K d1.g.ks).length := by
          unfold edgesOf; simp
        have hcnt2 := p1.tr.cnt
        obtain ⟨r, hr⟩ := selectLevel_some S (max d1.g.nv d1.g.nTotal) d1.g.ks 0
          (S.maxsz (max d1.g.nv d1.g.nTotal) 0) (d1.g.nTotal + marks K d1.g.ks) (by
            intro l hl
            have : l + 1 = RS := by rw [hl, hi.inv.len]; simp
            rw [this, hS.top]
            have := p1.nv
            omega)
          (by intro hh; have := hi.inv.len; rw [hh] at this; simp [RS] at this)
          (by rw [hsum]; omega)
        have hlt := (selectLevel_lt S _ _ _ _ _ hr).2
        rw [Nat.zero_add, hi.inv.len] at hlt
        obtain ⟨c', b1, b2, b3, b4, b5, b6, b7⟩ := hi.inv.c0wf.clean_ok
        obtain ⟨v1, v2, v3⟩ := build_live hK hi.inv he1 hm
        have hl0 : d1.g.ks.length = RS := hi.inv.len
        obtain ⟨d2, hd2⟩ := unionDelay_ok (d := ⟨{ d1.g with maxR := max r d1.g.maxR, c0 := c' }, 0, RS, r,
          some (K.build (d1.g.c0.live ++ [e]) d1.g.nv)⟩) hl0 hlt (by simp)
          (Or.inr ⟨Nat.le_refl _, Or.inl ⟨_, rfl⟩⟩)
        have hv : AllValid K d1.g.nv (d1.g.ks ++ [some (K.build (d1.g.c0.live ++ [e]) d1.g.nv)]) :=
          allValid_slots.2 ⟨hi.inv.val, by intro t ht; cases ht; exact v1⟩
        have u := unionDelay_spec hK (d := ⟨{ d1.g with maxR := max r d1.g.maxR, c0 := c' }, 0, RS, r,
          some (K.build (d1.g.c0.live ++ [e]) d1.g.nv)⟩) hl0 hv hlt (by simp) (by simp) hd2
        obtain ⟨f1, f2⟩ := unionDelay_few hK (d := ⟨{ d1.g with maxR := max r d1.g.maxR, c0 := c' }, 0, RS, r,
          some (K.build (d1.g.c0.live ++ [e]) d1.g.nv)⟩) hl0 hv hlt (by simp) (by simp) hd2
        obtain ⟨ks, hg⟩ := u.g
        have hflush : d1.flush S e = .ok { d2 with g := { d2.g with nTotal := d2.g.nTotal + 1 } } := by
          unfold DKD.flush
          rw [hr]
          simp only [hi.inv.c0wf.converted_eq, b1, Res.ok_bind, hd2]
        simp only [hflush] at hrun
        have hmaxR : d2.g.maxR = max r d1.g.maxR := by rw [hg]
        have hufin : d2.ufinal = r := u.fin
        have hc : d2.g.c0 = c' := by rw [hg]
        have hui := u.ui
        simp only at hui
        have hremle : d2.rem ≤ 7 := by
          unfold rem
          rw [hufin]
          simp only [RS] at hlt
          omega
        refine hfin _ hrun ?_ ?_ ?_ ?_ ?_ ?_ ?_ ?_
        · show marks K d2.g.ks ≤ w.dels
          have e1 : marks K d2.slots = marks K d2.g.ks := marks_slots_none (u.tmp (Or.inl (Nat.le_refl _)))
          have e2 : marks K (slots (⟨{ d1.g with maxR := max r d1.g.maxR, c0 := c' }, 0, RS, r,
              some (K.build (d1.g.c0.live ++ [e]) d1.g.nv)⟩ : DKD K)) = marks K d1.g.ks := by
            simp only [slots, marks_append, marks_some, marks_nil, v3]; omega
          rw [e1, e2] at f1
          omega
        · intro i t hi
          show i ≤ d2.g.maxR
          rw [hmaxR]
          rcases u.above i t hi with h3 | h3
          · simp only at h3; omega
          · have := p1.above i t h3; omega
        · intro _; left
          show d2.ufinal ≤ d2.g.maxR
          rw [hmaxR, hufin]; omega
        · intro hu'
          have hu'' : d2.ui ≤ d2.ufinal := hu'
          refine ⟨e, 1, (f2 e (Or.inr ⟨Nat.le_refl _, _, rfl, (v2 e).2 (Or.inr rfl)⟩)).resolve_left (by omega), ?_,
            by simp⟩
          show 1 + d2.rem ≤ 8
          omega
        · right
          show d2.rem + d2.g.c0.live.length ≤ 7
          rw [hc, b3]
          simpa using hremle
        · show d2.g.c0.marked = 0
          rw [hc]; exact b5
        · show d2.g.c0.live.length ≤ B
          rw [hc, b3]; simp
        · show ∀ x ∈ d2.g.c0.live, _
          rw [hc, b3]; simp
      · exfalso
        have hcap := hS.cap6 (m := max d1.g.nv d1.g.nTotal) (by have := p1.nv; omega)
        have : d1.rem ≠ 0 := by
          simp only [workDone, decide_eq_true_eq] at hwd
          unfold rem; omega
        rcases p5 with h3 | h3
        · exact this h3
        · omega

/-- The threshold of `del_edge` is not reached while deletions are rare. -/
theorem Kept.quiet {S : Sizing} {X : Nat} (hS : S.Calibrated X) {n B : Nat} {d : DKD K} {w : Win} (h : Kept n B d w)
    {e : Edge} (hrare : (w.step (.del e)).Rare) (hsz : w.present.length ≤ X) :
    ∀ k, k ≤ marks K d.g.ks + (if e ∈ d.g.edgesOf then 1 else 0) →
      S.rebuild k (if e ∈ d.g.edgesOf then decr d.g.nTotal else d.g.nTotal) = false := by
  intro k hk
  have hmk := h.few
  have hcnt := h.cnt
  unfold Win.Rare at hrare
  simp only [Win.step] at hrare
  by_cases hm : e ∈ w.present
  · rw [if_pos ((h.tr.mem e).2 hm)] at hk ⊢
    rw [if_pos hm] at hrare
    simp only [List.length_erase_of_mem hm] at hrare
    have hpos := List.length_pos_of_mem hm
    unfold decr
    rw [if_neg (by omega), hcnt]
    exact hS.rare (by omega) (by omega)
  · rw [if_neg (fun hh => hm ((h.tr.mem e).1 hh))] at hk ⊢
    rw [if_neg hm] at hrare
    rw [hcnt]
    exact hS.rare (by omega) hsz

/-- `del_edge` of a settled edge. -/
theorem Kept.delEdge (hK : K.Lawful) {S : Sizing} {X : Nat} (hS : S.Calibrated X) (hM : K.MarksOne) {n B : Nat} (hB8 : 8 ≤ B) {d : DKD K} {w : Win}
    (h : Kept n B d w) {e : Edge} (he : InRange n e) (hrare : (w.step (.del e)).Rare)
    (hsz : w.present.length ≤ X) (hold : w.Old B e) :
    ∃ d', d.delEdge S e = .ok d' ∧ Kept n B d' (w.step (.del e)) := by
  have hi := h.tr.inv
  have he' : InRange d.g.nv e := by rw [h.nv]; exact he
  have hl : e ∉ d.g.c0.live := by
    intro hl
    exact hold ((h.tr.mem e).1 (List.mem_append_left _ hl)) (mem_take_mono h.calm.len (h.calm.recent e hl))
  obtain ⟨d', r0, r1, r2, r3, r4, r5, r6, r7, r8, r9, r10⟩ := delEdge_few hK hM hi he'
    (fun _ => h.quiet hS hrare hsz)
  obtain ⟨t1, t2⟩ := h.tr.step hK S (o := .del e) he' r0
  obtain ⟨w1, w2⟩ := present_step h.nd (.del e)
  have hlog : (w.step (.del e)).log = w.log := by simp only [Win.step]; split <;> rfl
  have hc := r9 hl
  have hrem : d'.rem = d.rem := by unfold rem; rw [r1, r3]
  have hnone : (∀ t, some t ∉ d.g.ks) → ∀ t, some t ∉ d'.g.ks := by
    intro hn t ht
    obtain ⟨i, hi⟩ := List.mem_iff_getElem?.1 ht
    obtain ⟨t', ht'⟩ := r8 i t hi
    exact hn t' (List.mem_of_getElem? ht')
  refine ⟨d', r0, ⟨⟨t1.inv, ?_, t1.cnt⟩, w1, by rw [t2, h.nv], hrare, ?_, ?_, ?_, ?_, ?_, ⟨?_, ?_, ?_, r7 h.calm.ne⟩⟩⟩
  · intro e'; rw [t1.mem, w2]
  · have hfew := h.few
    simp only [Win.step]
    by_cases hm : e ∈ w.present
    · rw [if_pos ((h.tr.mem e).2 hm)] at r6
      rw [if_pos hm]
      show _ ≤ w.dels + 1
      omega
    · rw [if_neg (fun hh => hm ((h.tr.mem e).1 hh))] at r6
      rw [if_neg hm]
      omega
  · intro i t hi
    obtain ⟨t', ht'⟩ := r8 i t hi
    rw [r5]; exact h.above i t' ht'
  · rw [r1, r3, r5]
    exact fun hu => (h.fin hu).imp id hnone
  · rw [r1, r3, r2, hlog, hrem]
    intro hu
    rcases h.src hu with ⟨x, j, q1, q2, q3⟩ | ⟨q1, q2⟩
    · left
      rcases q1 with ⟨c1, t, c2, c3⟩ | ⟨c1, t, c2, _⟩
      · have hxp : x ∈ w.present := by
          rw [← h.tr.mem]
          refine List.mem_append_right _ (mem_flat.2 ⟨t, List.mem_of_getElem? c2, c3⟩)
        have hxe : x ≠ e := by
          rintro rfl
          exact hold hxp (mem_take_mono (by omega) q3)
        obtain ⟨t', z1, z2⟩ := r10 _ t x c2 c3 hxe
        exact ⟨x, j, Or.inl ⟨by rw [r2]; exact c1, t', by rw [r2]; exact z1, z2⟩, q2, q3⟩
      · rw [hi.tmp] at c2; cases c2
    · exact Or.inr ⟨q1, hnone q2⟩
  · rw [hrem, hc]; exact h.bud
  · rw [hc]; exact h.calm.c0m
  · rw [hc]; exact h.calm.len
  · rw [hc, hlog]; exact h.calm.recent

theorem init_kept (S : Sizing) {n B : Nat} : Kept n B (init K S n) (Win.run []) := by
  have he : (init K S n).g.edgesOf = [] := init_edges _ _
  have hlv : (init K S n).g.c0.live = [] := by
    unfold edgesOf at he
    exact (List.append_eq_nil_iff.1 he).1
  have ht : ∀ t, some t ∉ (init K S n).g.ks := by
    intro t ht; simp [init, DK.init, List.mem_replicate] at ht
  refine ⟨⟨init_dinv _ n, ?_, ?_⟩, ?_, rfl, ?_, ?_, DK.init_noneAbove _ n, fun _ => Or.inr ht,
    fun _ => Or.inr ⟨Nat.le_refl _, ht⟩, ?_, ⟨rfl, ?_, ?_, fun t h => absurd h (ht t)⟩⟩
  · intro e; rw [he]; simp [Win.run]
  · rw [he]; rfl
  · simp [Win.run]
  · simp [Win.Rare, Win.run]
  · show marks K (List.replicate RS none) ≤ _
    rw [marks_replicate]; simp
  · right; rw [hlv]; simp [rem, init]
  · rw [hlv]; simp
  · rw [hlv]; simp

theorem settled_run (hK : K.Lawful) {S : Sizing} {X : Nat} (hS : S.Calibrated X) (hM : K.MarksOne) {n B M : Nat} (hn : 162 ≤ n) (hMx : M ≤ X)
    (hB8 : 8 ≤ B) (hB : ∀ k, k ≤ M → S.maxsz (max n k) 0 ≤ B) {ops : List Op} :
    Settled n B M ops → ∃ d : DKD K, (∀ nd, DKD.run nd K S n ops = .ok d) ∧ Kept n B d (Win.run ops) ∧
      (Win.run ops).present.length ≤ M := by
  induction ops using List.reverseRecOn with
  | nil =>
    intro _
    have h1 : n ≠ 1 := by omega
    refine ⟨init K S n, fun nd => ?_, init_kept S, by simp [Win.run]⟩
    simp [DKD.run, create, runFrom, h1]
  | append_singleton ops o ih =>
    intro hs
    obtain ⟨d, h1, h2, h4⟩ := ih hs.of_append
    obtain ⟨a1, a2, a3⟩ := hs ops o [] rfl
    rw [Win.run_snoc] at a2 a3 ⊢
    have hkey : ∃ d', (∀ nd, d.step nd S o = .ok d') ∧ Kept n B d' ((Win.run ops).step o) := by
      cases o with
      | add e => exact h2.addEdge hK hS hn hB h4 a1
      | del e =>
        obtain ⟨q1, q2⟩ := a3 e rfl
        obtain ⟨d', z1, z2⟩ := h2.delEdge hK hS hM hB8 a1 q1 (le_trans h4 hMx) q2
        exact ⟨d', fun _ => z1, z2⟩
    obtain ⟨d', b1, b2⟩ := hkey
    refine ⟨d', fun nd => ?_, b2, a2⟩
    rw [run_append, h1]
    show (d.step nd S o >>= fun d' => runFrom nd S d' []) = .ok d'
    rw [b1]; rfl

end DKD

/-! ## C89 -/

/-- What a user of `DKtree_delay` expects of a graph with vertices `0..n-1`, `m` edges and edge set `E`. -/
structure DKD.Shows (d : DKD K) (n : Nat) (E : Edge → Prop) (m : Nat) : Prop where
  nodes : d.g.numberNodes = n
  edges : d.numberEdges = m
  contains : ∀ e, InRange n e → ∃ b, d.contains e = .ok b ∧ (b = true ↔ E e)
  neighbours : ∀ x, x < n → ∃ l, d.listNeighbour x = .ok l ∧ l.Nodup ∧ ∀ y, y ∈ l ↔ E (x, y)

/-- C89 for any calibrated thresholds: a history of additions and deletions on at least 162 vertices in which deletions are rare (one per six edges
present) and never name one of the last `B` inserted edges (`B` at least the capacity of the buffer and at least 8):
every call returns, in both builds, whatever merges are pending; every query agrees with the set of edges, and so do
iterators and algorithms. -/
theorem DKD.settled_shows (hK : K.Lawful) {S : Sizing} {X : Nat} (hS : S.Calibrated X) (hM : K.MarksOne) {n B M : Nat} (hn : 162 ≤ n) (hMx : M ≤ X)
    (hB8 : 8 ≤ B) (hB : ∀ k, k ≤ M → S.maxsz (max n k) 0 ≤ B) {ops : List Op} (hs : Settled n B M ops) :
    ∃ d : DKD K, (∀ nd, DKD.run nd K S n ops = .ok d) ∧
      d.Shows n (specMem ops) (Win.run ops).present.length ∧
      (n ≤ 9999999 → d.g.iface.Faithful (specMem ops) ∧ d.g.iface.Algorithms n (specMem ops)) := by
  obtain ⟨d, h1, h2, _⟩ := DKD.settled_run hK hS hM hn hMx hB8 hB hs
  have hsp := (Win.present_spec ops).2
  have hmem : ∀ e, e ∈ d.g.edgesOf ↔ specMem ops e := fun e => by rw [h2.tr.mem, hsp]
  have ha := DKD.answers_of hK h2.tr.inv.inv h2.above hmem h2.tr.cnt h2.nv
  refine ⟨d, h1, ⟨h2.nv, h2.cnt, ha.contains, ha.neighbours⟩, fun h9 => ?_⟩
  have hf := DK.faithful_of hK h2.tr.inv.inv h2.above h2.calm.ne h2.calm.c0m (by rw [h2.nv]; omega)
    (by rw [h2.nv]; exact h9) hmem h2.tr.cnt
  have hnodes : d.g.iface.nodes = n := h2.nv
  have := hf.algorithms
  rw [hnodes] at this
  exact ⟨hf, this⟩

/-- The same with the window bounded explicitly: an edge is settled once an eighth of the graph's size (vertices or edges,
whichever is larger) has been inserted after it. -/
theorem DKD.settled_eighth (hK : K.Lawful) {S : Sizing} {X : Nat} (hS : S.Calibrated X) (hM : K.MarksOne) {n M : Nat} (hn : 162 ≤ n) (hMx : M ≤ X)
    {ops : List Op} (hs : Settled n (max n M / 8) M ops) :
    ∃ d : DKD K, (∀ nd, DKD.run nd K S n ops = .ok d) ∧
      d.Shows n (specMem ops) (Win.run ops).present.length ∧
      (n ≤ 9999999 → d.g.iface.Faithful (specMem ops) ∧ d.g.iface.Algorithms n (specMem ops)) := by
  refine DKD.settled_shows hK hS hM hn hMx ?_ (fun k hk => ?_) hs
  · rw [Nat.le_div_iff_mul_le (by norm_num)]; omega
  · refine le_trans (hS.eighth (by omega)) (Nat.div_le_div_right ?_)
    omega

/-! ## C90 pruning at the end -/

namespace DKD

/-- What `contains`, `list_neighbour` and the counter need. -/
structure Pruned (n : Nat) (d : DKD K) (w : Win) : Prop where
  tr : DTrack d (fun e => e ∈ w.present)
  nd : w.present.Nodup
  nv : d.g.nv = n
  few : marks K d.g.ks ≤ w.dels
  above : d.g.NoneAbove

theorem Pruned.delEdge (hK : K.Lawful) {S : Sizing} {X : Nat} (hS : S.Calibrated X) (hM : K.MarksOne) {n : Nat} {d : DKD K} {w : Win} (h : Pruned n d w)
    {e : Edge} (he : InRange n e) (hrare : (w.step (.del e)).Rare) (hsz : w.present.length ≤ X) :
    ∃ d', d.delEdge S e = .ok d' ∧ Pruned n d' (w.step (.del e)) := by
  have hi := h.tr.inv
  have he' : InRange d.g.nv e := by rw [h.nv]; exact he
  have hcnt : d.g.nTotal = w.present.length := by
    rw [h.tr.cnt]; exact length_eq_of_mem_iff hi.inv.nodup h.nd h.tr.mem
  have hmk := h.few
  have hr := hrare
  unfold Win.Rare at hr
  simp only [Win.step] at hr
  obtain ⟨d', r0, _, _, _, _, r5, r6, _, r8, _, _⟩ := delEdge_few (S := S) hK hM hi he' (by
    intro _ k hk
    by_cases hm : e ∈ w.present
    · rw [if_pos ((h.tr.mem e).2 hm)] at hk ⊢
      rw [if_pos hm] at hr
      simp only [List.length_erase_of_mem hm] at hr
      have hpos := List.length_pos_of_mem hm
      unfold decr
      rw [if_neg (by omega), hcnt]
      exact hS.rare (by omega) (by omega)
    · rw [if_neg (fun hh => hm ((h.tr.mem e).1 hh))] at hk ⊢
      rw [if_neg hm] at hr
      rw [hcnt]
      exact hS.rare (by omega) hsz)
  obtain ⟨t1, t2⟩ := h.tr.step hK S (o := .del e) he' r0
  obtain ⟨w1, w2⟩ := present_step h.nd (.del e)
  refine ⟨d', r0, ⟨t1.inv, fun e' => by rw [t1.mem, w2], t1.cnt⟩, w1, by rw [t2, h.nv], ?_, ?_⟩
  · simp only [Win.step]
    by_cases hm : e ∈ w.present
    · rw [if_pos ((h.tr.mem e).2 hm)] at r6
      rw [if_pos hm]
      show _ ≤ w.dels + 1
      omega
    · rw [if_neg (fun hh => hm ((h.tr.mem e).1 hh))] at r6
      rw [if_neg hm]
      omega
  · intro i t hi
    obtain ⟨t', ht'⟩ := r8 i t hi
    rw [r5]; exact h.above i t' ht'

theorem prune_run (hK : K.Lawful) {S : Sizing} {X : Nat} (hS : S.Calibrated X) (hM : K.MarksOne) {n M : Nat} (hMx : M ≤ X) {ops : List Op} {nd : Bool}
    {d : DKD K} (hr : DKD.run nd K S n ops = .ok d) (hp : Pruned n d (Win.run ops))
    (hw : (Win.run ops).present.length ≤ M) {ds : List Edge} (hd : RarePruning n ops ds) :
    ∃ d' : DKD K, DKD.run nd K S n (ops ++ ds.map Op.del) = .ok d' ∧
      Pruned n d' (Win.run (ops ++ ds.map Op.del)) ∧ (Win.run (ops ++ ds.map Op.del)).present.length ≤ M := by
  induction ds using List.reverseRecOn with
  | nil => exact ⟨d, by simpa using hr, by simpa using hp, by simpa using hw⟩
  | append_singleton ds e ih =>
    obtain ⟨g, h1, h2, h3⟩ := ih (fun pre e' post hh => hd pre e' (post ++ [e]) (by simp [hh]))
    obtain ⟨a1, a2⟩ := hd ds e [] rfl
    rw [List.map_append, ← List.append_assoc] at a2 ⊢
    simp only [List.map_cons, List.map_nil] at a2 ⊢
    rw [Win.run_snoc] at a2 ⊢
    obtain ⟨g', b1, b2⟩ := h2.delEdge hK hS hM a1 a2 (le_trans h3 hMx)
    refine ⟨g', ?_, b2, ?_⟩
    · rw [run_append, h1]
      show (g.delEdge S e >>= fun g' => runFrom nd S g' []) = .ok g'
      rw [b1]; rfl
    · simp only [Win.step]
      split
      · exact le_trans (List.length_erase_le) h3
      · exact h3

theorem Pruned.shows (hK : K.Lawful) {n : Nat} {d : DKD K} {ops : List Op} (h : Pruned n d (Win.run ops)) :
    d.Shows n (specMem ops) (Win.run ops).present.length := by
  have hsp := (Win.present_spec ops).2
  have ha := DKD.answers_of hK h.tr.inv.inv h.above (G := specMem ops) (fun e => by rw [h.tr.mem, hsp]) h.tr.cnt h.nv
  refine ⟨h.nv, ?_, ha.contains, ha.neighbours⟩
  show d.g.nTotal = _
  rw [h.tr.cnt]; exact length_eq_of_mem_iff h.tr.inv.inv.nodup h.nd h.tr.mem

end DKD

/-- C90 for any calibrated thresholds: after a settled history any edges may be deleted, the last inserted ones too and whatever merge is pending, as
long as at the end at most one edge was deleted for every six still present: every `del_edge` returns, in both builds,
and `contains`, `list_neighbour` and the counters agree with the set of edges. -/
theorem DKD.settled_prune (hK : K.Lawful) {S : Sizing} {X : Nat} (hS : S.Calibrated X) (hM : K.MarksOne) {n B M : Nat} (hn : 162 ≤ n) (hMx : M ≤ X)
    (hB8 : 8 ≤ B) (hB : ∀ k, k ≤ M → S.maxsz (max n k) 0 ≤ B) {ops : List Op} (hs : Settled n B M ops)
    {ds : List Edge} (hd : ∀ e ∈ ds, InRange n e) (hr : (Win.run (ops ++ ds.map Op.del)).Rare) (nd : Bool) :
    ∃ d : DKD K, DKD.run nd K S n (ops ++ ds.map Op.del) = .ok d ∧
      d.Shows n (specMem (ops ++ ds.map Op.del)) (Win.run (ops ++ ds.map Op.del)).present.length := by
  obtain ⟨d, h1, h2, h3⟩ := DKD.settled_run hK hS hM hn hMx hB8 hB hs
  obtain ⟨d', a1, a2, _⟩ := DKD.prune_run hK hS hM hMx (h1 nd) ⟨h2.tr, h2.nd, h2.nv, h2.few, h2.above⟩ h3
    (RarePruning.of_end hd hr)
  exact ⟨d', a1, a2.shows hK⟩

/-- The same on any number of vertices, for insertion histories that return with assertions on (the only other outcome is
the assertion of C33): up to one seventh of the edges may then be deleted, pending merge or not. -/
theorem DKD.build_prune_shows (hK : K.Lawful) {S : Sizing} {X : Nat} (hS : S.Calibrated X) (hM : K.MarksOne) {n : Nat} (hn : 2 ≤ n) {es ds : List Edge}
    (hes : ∀ e ∈ es, InRange n e) (hds : ∀ e ∈ ds, InRange n e) {d0 : DKD K}
    (h0 : DKD.run false K S n (es.map Op.add) = .ok d0)
    (hsz : es.toFinset.card ≤ X) (hr : 6 * (es.toFinset ∩ ds.toFinset).card ≤ (es.toFinset \ ds.toFinset).card) :
    ∃ d : DKD K, DKD.run false K S n (es.map Op.add ++ ds.map Op.del) = .ok d ∧
      d.Shows n (fun e => e ∈ es ∧ e ∉ ds) (es.toFinset \ ds.toFinset).card := by
  obtain ⟨q1, q2⟩ := Win.present_spec (es.map Op.add)
  obtain ⟨p1, p2⟩ := Win.present_spec (es.map Op.add ++ ds.map Op.del)
  have hcard : (Win.run (es.map Op.add ++ ds.map Op.del)).present.length = (es.toFinset \ ds.toFinset).card := by
    rw [← List.toFinset_card_of_nodup p1]
    congr 1
    ext e
    rw [List.mem_toFinset, p2, mem_build_prune]
    simp
  have hmem0 : ∀ e, e ∈ (Win.run (es.map Op.add)).present ↔ e ∈ es := by
    intro e
    have := mem_build_prune es [] e
    simp only [List.map_nil, List.append_nil, List.not_mem_nil, not_false_eq_true, and_true] at this
    rw [q2, this]
  have hcard0 : (Win.run (es.map Op.add)).present.length = es.toFinset.card := by
    rw [← List.toFinset_card_of_nodup q1]
    congr 1
    ext e
    rw [List.mem_toFinset, hmem0, List.mem_toFinset]
  have hdels0 : (Win.run (es.map Op.add)).dels = 0 := by
    clear * -
    induction es using List.reverseRecOn with
    | nil => rfl
    | append_singleton es e ih =>
      rw [List.map_append]
      simp only [List.map_cons, List.map_nil]
      rw [Win.run_snoc]
      simp only [Win.step]
      split <;> exact ih
  have hcnt := (prune_counts (Win.run (es.map Op.add)) ds).2
  have hrun : Win.run (es.map Op.add ++ ds.map Op.del) = (ds.map Op.del).foldl Win.step (Win.run (es.map Op.add)) := by
    simp [Win.run]
  rw [← hrun, hcard, hcard0, hdels0] at hcnt
  have hsplit := Finset.card_inter_add_card_sdiff es.toFinset ds.toFinset
  have hrare : (Win.run (es.map Op.add ++ ds.map Op.del)).Rare := by unfold Win.Rare; rw [hcard]; omega
  obtain ⟨d', i1, i2, i3, _, i5⟩ := DKD.run_inserts hK hS.top hn hes
  have i6 : d0 = d' ∧ (∀ e, e ∈ d'.g.edgesOf ↔ e ∈ es) ∧ d'.g.nTotal = d'.g.edgesOf.length := by
    rcases i5 with ⟨i5, _⟩ | ⟨i5, i7⟩
    · rw [show inserts es = es.map Op.add from rfl, h0] at i5; cases i5
    · rw [show inserts es = es.map Op.add from rfl, h0] at i5
      exact ⟨Res.ok.inj i5, i7⟩
  obtain ⟨rfl, i7, i8⟩ := i6
  have hmarks : marks K d0.g.ks = 0 := by
    have := i3.fresh.trees
    generalize d0.g.ks = ks at this
    clear * - this
    induction ks with
    | nil => rfl
    | cons o ks ih =>
      have h1 := ih (fun t ht => this t (by simp [ht]))
      cases o with
      | none => simpa using h1
      | some t => rw [marks_some, this t (by simp), h1]
  obtain ⟨d1, a1, a2, _⟩ := DKD.prune_run hK hS hM (le_refl _) h0
    ⟨⟨i3.inv, fun e => by rw [i7, hmem0], i8⟩, q1, i2, by rw [hmarks]; exact Nat.zero_le _, i3.above⟩
    (by rw [hcard0]; exact hsz) (RarePruning.of_end hds hrare)
  have h2 := a2.shows hK
  rw [hcard] at h2
  have : specMem (es.map Op.add ++ ds.map Op.del) = fun e => e ∈ es ∧ e ∉ ds := by
    funext e; exact propext (mem_build_prune es ds e)
  rw [this] at h2
  exact ⟨d1, a1, h2⟩

/-! ## C89, C90: the formulas of the code over the reals -/

/-- C89: a history of additions and deletions on at least 162 vertices in which deletions are rare (one per six edges
present) and never name one of the last `B` inserted edges (`B` at least the capacity of the buffer and at least 8):
every call returns, in both builds, whatever merges are pending; every query agrees with the set of edges, and so do
iterators and algorithms. -/
theorem C89_settled (hK : K.Lawful) (hM : K.MarksOne) {n B M : Nat} (hn : 162 ≤ n) (hMx : M ≤ 2 ^ 64)
    (hB8 : 8 ≤ B) (hB : ∀ k, k ≤ M → realSizing.maxsz (max n k) 0 ≤ B) {ops : List Op} (hs : Settled n B M ops) :
    ∃ d : DKD K, (∀ nd, DKD.run nd K realSizing n ops = .ok d) ∧
      d.Shows n (specMem ops) (Win.run ops).present.length ∧
      (n ≤ 9999999 → d.g.iface.Faithful (specMem ops) ∧ d.g.iface.Algorithms n (specMem ops)) :=
  DKD.settled_shows hK realSizing_calibrated hM hn hMx hB8 hB hs

/-- C89 with the window bounded explicitly: an edge is settled once an eighth of the graph's size (vertices or edges,
whichever is larger) has been inserted after it. -/
theorem C89_eighth (hK : K.Lawful) (hM : K.MarksOne) {n M : Nat} (hn : 162 ≤ n) (hMx : M ≤ 2 ^ 64)
    {ops : List Op} (hs : Settled n (max n M / 8) M ops) :
    ∃ d : DKD K, (∀ nd, DKD.run nd K realSizing n ops = .ok d) ∧
      d.Shows n (specMem ops) (Win.run ops).present.length ∧
      (n ≤ 9999999 → d.g.iface.Faithful (specMem ops) ∧ d.g.iface.Algorithms n (specMem ops)) :=
  DKD.settled_eighth hK realSizing_calibrated hM hn hMx hs

/-- C90: after a settled history any edges may be deleted, the last inserted ones too and whatever merge is pending, as
long as at the end at most one edge was deleted for every six still present: every `del_edge` returns, in both builds,
and `contains`, `list_neighbour` and the counters agree with the set of edges. -/
theorem C90_prune (hK : K.Lawful) (hM : K.MarksOne) {n B M : Nat} (hn : 162 ≤ n) (hMx : M ≤ 2 ^ 64)
    (hB8 : 8 ≤ B) (hB : ∀ k, k ≤ M → realSizing.maxsz (max n k) 0 ≤ B) {ops : List Op} (hs : Settled n B M ops)
    {ds : List Edge} (hd : ∀ e ∈ ds, InRange n e) (hr : (Win.run (ops ++ ds.map Op.del)).Rare) (nd : Bool) :
    ∃ d : DKD K, DKD.run nd K realSizing n (ops ++ ds.map Op.del) = .ok d ∧
      d.Shows n (specMem (ops ++ ds.map Op.del)) (Win.run (ops ++ ds.map Op.del)).present.length :=
  DKD.settled_prune hK realSizing_calibrated hM hn hMx hB8 hB hs hd hr nd

/-- C90 on any number of vertices, for insertion histories that return with assertions on (the only other outcome is
the assertion of C33): up to one seventh of the edges may then be deleted, pending merge or not. -/
theorem C90_build_prune (hK : K.Lawful) (hM : K.MarksOne) {n : Nat} (hn : 2 ≤ n) {es ds : List Edge}
    (hes : ∀ e ∈ es, InRange n e) (hds : ∀ e ∈ ds, InRange n e) {d0 : DKD K}
    (h0 : DKD.run false K realSizing n (es.map Op.add) = .ok d0)
    (hsz : es.toFinset.card ≤ 2 ^ 64) (hr : 6 * (es.toFinset ∩ ds.toFinset).card ≤ (es.toFinset \ ds.toFinset).card) :
    ∃ d : DKD K, DKD.run false K realSizing n (es.map Op.add ++ ds.map Op.del) = .ok d ∧
      d.Shows n (fun e => e ∈ es ∧ e ∉ ds) (es.toFinset \ ds.toFinset).card :=
  DKD.build_prune_shows hK realSizing_calibrated hM hn hes hds h0 hsz hr

/-! ## Instances -/

/-- 32 edges on 162 vertices; three settled ones are deleted on the way, one of them is inserted again. -/
def wSettledD : List Op :=
  ((List.range 28).map (fun i => Op.add (i, 2 * i))) ++ [.del (0, 0), .del (3, 6), .add (161, 0), .add (161, 1),
    .del (0, 0), .add (161, 2), .del (5, 10), .add (3, 6), .add (160, 4)]

/-- C89's hypotheses hold of `wSettledD`. -/
example : Settled 162 (max 162 64 / 8) 64 wSettledD := settled_of_check (by decide +kernel)

example (nd : Bool) : ∃ d : DKD refK2, DKD.run nd refK2 realSizing 162 wSettledD = .ok d ∧ d.numberEdges = 30 ∧
    d.contains (5, 10) = .ok false ∧ d.contains (3, 6) = .ok true := by
  obtain ⟨d, h1, h2, _⟩ := C89_eighth (K := refK2) refK2_lawful refK2_marksOne (n := 162) (M := 64) (by norm_num)
    (by norm_num) (settled_of_check (ops := wSettledD) (by decide +kernel))
  refine ⟨d, h1 nd, ?_, ?_, ?_⟩
  · rw [h2.edges]; decide +kernel
  · obtain ⟨b, hb, hb'⟩ := h2.contains (5, 10) (by decide)
    cases b with
    | false => exact hb
    | true => exact absurd ((Win.present_spec wSettledD).2 _ |>.2 (hb'.1 rfl)) (by decide +kernel)
  · obtain ⟨b, hb, hb'⟩ := h2.contains (3, 6) (by decide)
    rw [hb'.2 (((Win.present_spec wSettledD).2 _).1 (by decide +kernel))] at hb
    exact hb

/-- C90's hypotheses: the last inserted edge and one held in a level are deleted from 14 edges on 8 vertices. -/
example : ∃ d : DKD refK2, DKD.run false refK2 realSizing 8
    (((List.range 14).map (fun i => (i / 8, i % 8))).map Op.add ++ [(1, 5), (0, 0)].map Op.del) = .ok d ∧
    d.numberEdges = 12 := by
  obtain ⟨d0, h0, _⟩ := DKD.real_check (nd := false) (n := 8)
    (ops := ((List.range 14).map (fun i => (i / 8, i % 8))).map Op.add) (f := fun _ => true) (by decide +kernel)
  obtain ⟨d, h1, h2⟩ := C90_build_prune (K := refK2) refK2_lawful refK2_marksOne (n := 8)
    (es := (List.range 14).map (fun i => (i / 8, i % 8))) (ds := [(1, 5), (0, 0)]) (by norm_num) (by decide) (by decide)
    h0 (le_trans (List.toFinset_card_le _) (by simp)) (by decide +kernel)
  exact ⟨d, h1, by rw [h2.edges]; decide +kernel⟩

/-! ## Recent edges -/

/-- `realSizing` with two values for 162 vertices computed. -/
noncomputable def sizing162 : Sizing where
  maxsz m i := if m = 162 ∧ i = 0 then 6 else if m = 162 ∧ i = 1 then 9 else realSizing.maxsz m i
  rebuild := realSizing.rebuild

theorem realSizing_162 : realSizing = sizing162 := by
  have h0 : realSizing.maxsz 162 0 = 6 := maxsz_eq (a := 7) (b := 1) (c := 169) (d := 23) (by norm_num)
    (by norm_num) (by norm_num) (by norm_num) (by norm_num) (by norm_num) (by norm_num) (by norm_num)
  have h1 : realSizing.maxsz 162 1 = 9 := maxsz_eq (a := 22) (b := 3) (c := 169) (d := 23) (by norm_num)
    (by norm_num) (by norm_num) (by norm_num) (by norm_num) (by norm_num) (by norm_num) (by norm_num)
  have hm : realSizing.maxsz = sizing162.maxsz := by
    funext m i
    show _ = if m = 162 ∧ i = 0 then 6 else if m = 162 ∧ i = 1 then 9 else realSizing.maxsz m i
    split
    · rename_i h; rw [h.1, h.2, h0]
    · split
      · rename_i h; rw [h.1, h.2, h1]
      · rfl
  have hr : realSizing.rebuild = sizing162.rebuild := rfl
  cases hreal : realSizing
  rw [hreal] at hm hr
  simp only at hm hr
  rw [hm, hr]

/-- 13 edges on 162 vertices; the last inserted one is deleted and another one inserted. -/
def wRecentD : List Op := ((List.range 13).map (fun i => Op.add (i, 2 * i))) ++ [.del (12, 24), .add (100, 7)]

/-- C89 without the restriction to settled edges (`B = 0`) is false: one rare deletion of a recent edge makes the next
insertion write out of bounds, in both builds. -/
theorem C89_recent_refuted (nd : Bool) :
    Settled 162 0 64 wRecentD ∧ DKD.run nd refK2 realSizing 162 wRecentD = .ub := by
  refine ⟨settled_of_check (by decide +kernel), ?_⟩
  rw [realSizing_162, ← outcome_ub]
  cases nd <;> decide +kernel

end DK2
