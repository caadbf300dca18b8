import Verif.Hist
/-!
# Further lemmas on `DKtree`: case analysis of `add_edge`, exact histories with rebuilds
-/

namespace DK2
namespace DK
variable {K : K2Impl}

/-- The four ways `add_edge` of an absent edge can go. -/
theorem Inv.addEdge_cases (hK : K.Lawful) (hF : K.ForcedPure) (S : Sizing) {g : DK K} (hi : g.Inv)
    {e : Edge} (he : InRange g.nv e) (hm : e ∉ g.edgesOf) :
    (g.c0.size < S.maxsz (max g.nv g.nTotal) 0 ∧ g.c0.room S g.nTotal ∧
      ∃ c', g.addEdge S e = .ok { g with c0 := c', nTotal := g.nTotal + 1 } ∧ c'.WF ∧
        c'.live = g.c0.live ++ [e] ∧ c'.nElements = g.c0.nElements + 1 ∧ c'.marked = g.c0.marked) ∨
    (g.c0.size < S.maxsz (max g.nv g.nTotal) 0 ∧ ¬ g.c0.room S g.nTotal ∧ g.addEdge S e = .ub) ∨
    (¬ g.c0.size < S.maxsz (max g.nv g.nTotal) 0 ∧
      selectLevel K S (max g.nv g.nTotal) g.ks 0 (S.maxsz (max g.nv g.nTotal) 0) = none ∧
      g.addEdge S e = .throws) ∨
    (¬ g.c0.size < S.maxsz (max g.nv g.nTotal) 0 ∧ ∃ i t c',
      selectLevel K S (max g.nv g.nTotal) g.ks 0 (S.maxsz (max g.nv g.nTotal) 0) = some i ∧ i < RS ∧
      K.valid g.nv t ∧
      (∀ e', e' ∈ K.edges t ↔ e' ∈ g.c0.live ∨ e' = e ∨ e' ∈ flat K (g.ks.take (i + 1))) ∧
      c'.WF ∧ c'.live = [] ∧ c'.nElements = 0 ∧
      g.addEdge S e = .ok { g with
          maxR := max i g.maxR
          c0 := c'
          ks := List.replicate i none ++ some t :: g.ks.drop (i + 1)
          nTotal := g.nTotal + 1 }) := by
  have hl : e ∉ g.c0.live := fun hh => hm (List.mem_append_left _ hh)
  unfold DK.addEdge
  rw [containsForced_pure hF, hi.contains_eq hK he]
  simp only [Res.ok_bind, hm, decide_false, Bool.false_eq_true, if_false]
  by_cases hlt : g.c0.size < S.maxsz (max g.nv g.nTotal) 0
  · by_cases hroom : g.c0.room S g.nTotal
    · left
      obtain ⟨c', a1, a2, a3, a4, a5, a6⟩ := C0.insert_absent hi.c0wf hl hroom
      refine ⟨hlt, hroom, c', ?_, a2, a3, a4, a5⟩
      rw [if_pos hlt, a1]; rfl
    · right; left
      refine ⟨hlt, hroom, ?_⟩
      rw [if_pos hlt, C0.insert_noroom hi.c0wf hl hroom]; rfl
  · right; right
    rw [if_neg hlt]
    cases hs : selectLevel K S (max g.nv g.nTotal) g.ks 0 (S.maxsz (max g.nv g.nTotal) 0) with
    | none => left; exact ⟨hlt, rfl, rfl⟩
    | some i =>
      right
      have hb := (selectLevel_lt S _ _ _ _ _ hs).2
      rw [Nat.zero_add] at hb
      have hnd : (g.c0.live ++ [e]).Nodup := by
        rw [List.nodup_append]
        exact ⟨hi.c0wf.live_nodup, by simp, by
          intro a ha b hb hab; simp at hb; exact hl (hb ▸ hab ▸ ha)⟩
      have hrg : ∀ e' ∈ g.c0.live ++ [e], InRange g.nv e' := by
        intro e' he'
        rcases List.mem_append.1 he' with h1 | h1
        · exact hi.range e' (List.mem_append_left _ h1)
        · simp at h1; exact h1 ▸ he
      obtain ⟨c', b1, b2, b3, b4, b5, b6, b7⟩ := hi.c0wf.clean_ok
      obtain ⟨m1, m2⟩ := mergeUpTo_fst hK (i + 1) (K.build (g.c0.live ++ [e]) g.nv) g.ks
        (hK.build_valid _ _ hnd hrg) hi.val
      refine ⟨hlt, i, (mergeUpTo K (i + 1) (K.build (g.c0.live ++ [e]) g.nv) g.ks).1, c', rfl,
        by rw [← hi.len]; exact hb, m1, ?_, b2, b3, b4, ?_⟩
      · intro e'
        rw [m2, hK.build_edges _ _ hnd hrg, List.mem_append, List.mem_singleton, or_assoc]
      · simp only [hi.c0wf.converted_eq, Res.ok_bind, b1]
        rw [mergeUpTo_snd, set_replicate_drop hb]

/-- After an insertion that returns, the new edge is in the buffer or the buffer is empty. -/
theorem Inv.addEdge_buffer (hK : K.Lawful) (hF : K.ForcedPure) (S : Sizing) {g g' : DK K} (hi : g.Inv)
    {e : Edge} (he : InRange g.nv e) (hm : e ∉ g.edgesOf) (hr : g.addEdge S e = .ok g') :
    e ∈ g'.c0.live ∨ g'.c0.live = [] := by
  rcases hi.addEdge_cases hK hF S he hm with ⟨_, _, c', h, _, h2, _⟩ | ⟨_, _, h⟩ | ⟨_, _, h⟩ |
    ⟨_, i, t, c', _, _, _, _, _, h2, _, h⟩
  · rw [h] at hr; cases hr; left; simp [h2]
  · rw [h] at hr; cases hr
  · rw [h] at hr; cases hr
  · rw [h] at hr; cases hr; right; exact h2

theorem rebuilds_of_live {S : Sizing} {g : DK K} (hi : g.WInv) {e : Edge} (h : e ∈ g.c0.live) :
    g.rebuilds S e = false := by
  obtain ⟨c', a1, _⟩ := hi.c0wf.erase_ok e
  unfold rebuilds
  rw [a1]; simp [h]

/-! ## Level selection -/

/-- Number of edges the trees of levels `0..i` account for. -/
def totals (K : K2Impl) (ks : List (Option K.T)) : Nat := (ks.map (fun o => o.elim 0 K.total)).sum

theorem selectLevel_cons (S : Sizing) (m : Nat) (o : Option K.T) (ks : List (Option K.T)) (i acc : Nat) :
    selectLevel K S m (o :: ks) i acc =
      if S.maxsz m (i + 1) > acc + o.elim 0 K.total + 1 then some i
      else selectLevel K S m ks (i + 1) (acc + o.elim 0 K.total) := by
  cases o <;> rfl

theorem selectLevel_eq_none (S : Sizing) (m : Nat) : ∀ (ks : List (Option K.T)) (i acc : Nat),
    selectLevel K S m ks i acc = none ↔
      ∀ j, j < ks.length → S.maxsz m (i + j + 1) ≤ acc + totals K (ks.take (j + 1)) + 1 := by
  intro ks
  induction ks with
  | nil => intro i acc; simp [selectLevel]
  | cons o ks ih =>
    intro i acc
    have htot : ∀ j, totals K ((o :: ks).take (j + 1)) = o.elim 0 K.total + totals K (ks.take j) := by
      intro j; simp [totals]
    rw [selectLevel_cons]
    constructor
    · intro h j hj
      split at h
      · cases h
      · rename_i h0
        cases j with
        | zero => rw [htot]; simp [totals] at *; omega
        | succ j =>
          have := (ih _ _).1 h j (by simpa using hj)
          rw [htot]
          have e1 : i + (j + 1) + 1 = i + 1 + j + 1 := by omega
          rw [e1]; omega
    · intro h
      rw [if_neg]
      · rw [ih]
        intro j hj
        have := h (j + 1) (by simpa using hj)
        rw [htot] at this
        have e1 : i + (j + 1) + 1 = i + 1 + j + 1 := by omega
        rw [e1] at this; omega
      · have := h 0 (by simp)
        rw [htot] at this
        simp [totals] at this
        omega

theorem selectLevel_eq_some (S : Sizing) (m : Nat) : ∀ (ks : List (Option K.T)) (i acc r : Nat),
    selectLevel K S m ks i acc = some r →
      acc + totals K (ks.take (r - i + 1)) + 1 < S.maxsz m (r + 1) := by
  intro ks
  induction ks with
  | nil => intro i acc r h; simp [selectLevel] at h
  | cons o ks ih =>
    intro i acc r h
    have htot : ∀ j, totals K ((o :: ks).take (j + 1)) = o.elim 0 K.total + totals K (ks.take j) := by
      intro j; simp [totals]
    rw [selectLevel_cons] at h
    split at h
    · rename_i h0
      cases h
      rw [htot]; simp [totals]; omega
    · have h1 := ih _ _ _ h
      have h2 := (selectLevel_lt S _ _ _ _ _ h).1
      rw [htot]
      have e1 : r - i = r - (i + 1) + 1 := by omega
      rw [e1]; omega

theorem flat_le_totals (hK : K.Lawful) {n : Nat} : ∀ {ks : List (Option K.T)}, AllValid K n ks →
    (flat K ks).length ≤ totals K ks := by
  intro ks
  induction ks with
  | nil => intro _; simp [totals]
  | cons o ks ih =>
    intro hv
    have := ih hv.tail
    cases o with
    | none => simpa [totals] using this
    | some t =>
      have h1 := hK.total_eq n t hv.head
      simp [totals] at *; omega

/-! ## Exact histories, rebuilds included -/

/-- The pair `(1,1)` after a history: its last add is followed by no call naming it and by no
deletion that triggers a reorganisation. -/
def Kept11 (K : K2Impl) (S : Sizing) (n : Nat) (ops : List Op) : Prop :=
  ∃ pre post, ops = pre ++ Op.add (1, 1) :: post ∧ (∀ o ∈ post, o.edge ≠ (1, 1)) ∧
    ∀ a e b, post = a ++ Op.del e :: b →
      ∀ g : DK K, run K S n (pre ++ Op.add (1, 1) :: a) = .ok g → g.rebuilds S e = false

theorem Kept11.of_add {S : Sizing} {n : Nat} (ops : List Op) :
    Kept11 K S n (ops ++ [Op.add (1, 1)]) := by
  refine ⟨ops, [], rfl, by simp, ?_⟩
  intro a e b h; simp at h

theorem Kept11.snoc {S : Sizing} {n : Nat} {ops : List Op} {o : Op} (h : Kept11 K S n ops)
    (ho : o.edge ≠ (1, 1))
    (hq : ∀ e, o = .del e → ∀ g : DK K, run K S n ops = .ok g → g.rebuilds S e = false) :
    Kept11 K S n (ops ++ [o]) := by
  obtain ⟨pre, post, rfl, h2, h3⟩ := h
  refine ⟨pre, post ++ [o], by simp, ?_, ?_⟩
  · intro o' ho'
    rcases List.mem_append.1 ho' with h | h
    · exact h2 _ h
    · simp at h; subst h; exact ho
  · intro a e b hab g hg
    rcases List.eq_nil_or_concat b with rfl | ⟨b', x, rfl⟩
    · have := List.append_inj' hab rfl
      obtain ⟨rfl, h4⟩ := this
      simp at h4
      exact hq e h4 g hg
    · have hab' : post ++ [o] = (a ++ Op.del e :: b') ++ [x] := by simpa using hab
      have := List.append_inj' hab' rfl
      exact h3 a e b' this.1 g hg

theorem Kept11.unsnoc {S : Sizing} {n : Nat} {ops : List Op} {o : Op} (h : Kept11 K S n (ops ++ [o])) :
    o = .add (1, 1) ∨ (o.edge ≠ (1, 1) ∧ Kept11 K S n ops ∧
      ∀ e, o = .del e → ∀ g : DK K, run K S n ops = .ok g → g.rebuilds S e = false) := by
  obtain ⟨pre, post, h1, h2, h3⟩ := h
  rcases List.eq_nil_or_concat post with rfl | ⟨post', x, rfl⟩
  · left
    have := List.append_inj' h1 rfl
    simpa using this.2
  · right
    have h1' : ops ++ [o] = (pre ++ Op.add (1, 1) :: post') ++ [x] := by simpa using h1
    obtain ⟨rfl, hx⟩ := List.append_inj' h1' rfl
    simp at hx; subst hx
    refine ⟨h2 _ (by simp), ⟨pre, post', rfl, fun o' ho' => h2 _ (by simp [ho']), ?_⟩, ?_⟩
    · intro a e b hab g hg
      exact h3 a e (b ++ [o]) (by simp [hab]) g hg
    · intro e he g hg
      subst he
      exact h3 post' e [] (by simp) g hg

/-- Exact content of a graph after any history that returns. -/
theorem run_mem11 (hK : K.Lawful) (hF : K.ForcedPure) (S : Sizing) {n : Nat} :
    ∀ {ops : List Op} {g : DK K}, OpsInRange n ops → run K S n ops = .ok g →
      ((1, 1) ∈ g.edgesOf ↔ Kept11 K S n ops) := by
  intro ops
  induction ops using List.reverseRecOn with
  | nil =>
    intro g _ hr
    obtain ⟨rfl, _⟩ := run_nil hr
    rw [init_edges]
    simp only [List.not_mem_nil, false_iff]
    rintro ⟨pre, post, h, _⟩
    simp at h
  | append_singleton ops o ih =>
    intro g hops hr
    obtain ⟨g0, h1, h2⟩ := run_snoc_ok S hr
    obtain ⟨t, hnv, hn1⟩ := run_track hK hF S (OpsInRange.of_append hops) h1
    have hin := OpsInRange.last hops
    have ih' := ih (OpsInRange.of_append hops) h1
    have h2n : 2 ≤ g0.nv := by rw [hnv]; exact inRange_two hin hn1
    rw [← hnv] at hin
    cases o with
    | add e =>
      obtain ⟨_, _, a3, _, _⟩ := t.inv.addEdge hK hF S hin h2
      rw [a3]
      constructor
      · rintro (h | h)
        · subst h; exact Kept11.of_add ops
        · by_cases he : e = (1, 1)
          · subst he; exact Kept11.of_add ops
          · exact (ih'.1 h).snoc he (by intro e' h'; cases h')
      · intro h
        rcases h.unsnoc with h | ⟨_, h, _⟩
        · simp at h; exact Or.inl h.symm
        · exact Or.inr (ih'.2 h)
    | del e =>
      have hin' : InRange g0.nv e := hin
      have h2' : g0.delEdge S e = .ok g := h2
      by_cases hq : g0.rebuilds S e = true
      · obtain ⟨_, _, b3, _, _⟩ := t.inv.delEdge_rebuild hK hF S hin' h2n hq h2'
        constructor
        · intro h; exact absurd rfl ((b3 _).1 h).2.2
        · intro h
          rcases h.unsnoc with h | ⟨_, _, h⟩
          · cases h
          · have := h e rfl g0 h1
            rw [this] at hq; cases hq
      · have hq' : g0.rebuilds S e = false := by simpa using hq
        obtain ⟨g1, b0, _, _, b3, _, _⟩ := t.inv.delEdge_quiet hK S hin' hq'
        rw [h2'] at b0; cases b0
        rw [b3, ih']
        constructor
        · rintro ⟨h, hne⟩
          refine h.snoc (fun hh => hne hh.symm) ?_
          intro e' he' g' hg'
          cases he'
          rw [h1] at hg'; cases hg'; exact hq'
        · intro h
          rcases h.unsnoc with h | ⟨h, h', _⟩
          · cases h
          · exact ⟨h', fun hh => h hh.symm⟩

/-- Without reorganisation, `(1,1)` follows the history. -/
theorem kept11_of_quiet {S : Sizing} {n : Nat} {ops : List Op} (hq : Quiet K S n ops) :
    Kept11 K S n ops ↔ specMem ops (1, 1) := by
  constructor
  · rintro ⟨pre, post, h1, h2, _⟩; exact ⟨pre, post, h1, h2⟩
  · rintro ⟨pre, post, h1, h2⟩
    refine ⟨pre, post, h1, h2, ?_⟩
    intro a e b hab g hg
    exact hq (pre ++ Op.add (1, 1) :: a) e b (by rw [h1, hab]; simp) g hg

end DK
end DK2

namespace DK2
namespace DK
variable {K : K2Impl}

theorem rebuildLevel_lt {S : Sizing} (hT : S.Top) {m n : Nat} (h : n < 2 * m) :
    rebuildLevel S m n < RS := by
  unfold rebuildLevel
  cases hf : (List.range RS).find? (fun i => decide (S.maxsz m (i + 1) > n)) with
  | none =>
    rw [List.find?_eq_none] at hf
    have := hf 7 (by simp [RS])
    have e : S.maxsz m (7 + 1) = 2 * m := hT m
    simp [e] at this; omega
  | some i =>
    have := List.mem_of_find?_eq_some hf
    simpa using this

/-- The reorganisation returns when the buffer is not empty. -/
theorem Inv.rebuild_ok (hK : K.Lawful) {S : Sizing} (hT : S.Top) {g : DK K} (h : g.Inv)
    (hnv : 1 ≤ g.nv) (hl : g.c0.live ≠ []) : ∃ g', g.rebuild S = .ok g' := by
  have hsz : g.c0.size ≠ 0 := by
    rw [h.c0wf.size_eq]; intro h0; exact hl (List.length_eq_zero_iff.1 h0)
  obtain ⟨c', b1, _⟩ := h.c0wf.clean_ok
  have hv := hK.build_valid g.c0.live g.nv h.c0wf.live_nodup
    (fun e he => h.range e (List.mem_append_left _ he))
  obtain ⟨t, t1, _⟩ := mergeAll_some hK g.ks (K.build g.c0.live g.nv) hv h.val
  have hlt : rebuildLevel S (max g.nv g.nTotal) g.nTotal < RS := rebuildLevel_lt hT (by omega)
  unfold DK.rebuild rebuildPrep
  rw [if_neg hsz]
  simp only [Res.ok_bind, rebuildDrain]
  rw [if_pos (by omega), h.c0wf.converted_eq]
  simp only [Res.ok_bind, b1, t1]
  rw [wr_of (by simpa using hlt)]
  exact ⟨_, rfl⟩

/-- `del_edge` returns when the buffer is not empty. -/
theorem Inv.delEdge_ok (hK : K.Lawful) {S : Sizing} (hT : S.Top) {g : DK K} (h : g.Inv) {e : Edge}
    (he : InRange g.nv e) (hl : g.c0.live ≠ []) : ∃ g', g.delEdge S e = .ok g' := by
  by_cases hq : g.rebuilds S e = true
  · obtain ⟨c', a1, a2, a3, a4, a5, a6⟩ := h.c0wf.erase_ok e
    unfold rebuilds at hq
    unfold DK.delEdge
    rw [a1] at hq ⊢
    simp only [Res.ok_bind]
    by_cases hm : e ∈ g.c0.live
    · simp [hm]
    · simp only [hm, decide_false, Bool.false_eq_true, if_false] at hq ⊢
      have hfil : g.c0.live.filter (fun e' => decide (e' ≠ e)) = g.c0.live := by
        rw [List.filter_eq_self]
        intro a ha
        have : a ≠ e := fun hh => hm (hh ▸ ha)
        simpa using this
      have hedges : edgesOf { g with c0 := c' } = g.edgesOf := by simp only [edgesOf, a3, hfil]
      have hi : Inv { g with c0 := c' } := by
        refine ⟨⟨a2, by simp [a6, h.c0nv], h.len, h.val, h.maxR_lt, ?_⟩, ?_⟩
        · rw [hedges]; exact h.range
        · rw [hedges]; exact h.nodup
      have hl' : e ∉ ({ g with c0 := c' } : DK K).c0.live := by simp only [a3, hfil]; exact hm
      obtain ⟨b1, b2, b3, b4, b5, b6, b7⟩ := hi.afterErase hK he hl'
      rw [if_pos hq]
      refine b1.rebuild_ok hK hT (by rw [b2]; have := he.1; show 1 ≤ g.nv; omega) ?_
      rw [b6]; simp only [a3, hfil]; exact hl
  · obtain ⟨g', h1, _⟩ := h.delEdge_quiet hK S he (by simpa using hq)
    exact ⟨g', h1⟩

/-- Edge count of two edge lists related by an insertion, in either direction. -/
theorem Track.count (hK : K.Lawful) {g : DK K} {G : Edge → Prop} (h : Track g G) :
    ∃ L : List Edge, L.Nodup ∧ (∀ e, InRange g.nv e → (e ∈ L ↔ g.contains e = .ok true)) ∧
      (∀ e ∈ L, InRange g.nv e) ∧ L.length ≤ g.nTotal :=
  ⟨g.edgesOf, h.inv.nodup, fun e he => by rw [h.inv.contains_eq hK he]; simp, h.inv.range, h.cnt⟩

end DK
end DK2
