import Verif.Prune
import Verif.PropsPrune
import Verif.VarAlgo
/-!
# `DKtree_delay` with rare deletions

What a merge step and `del_edge` do to the marked edges and to the tree that the pending merge will read next.
-/

namespace DK2
namespace DKD
open DK
variable {K : K2Impl}

/-- The tree that the pending merge reads next holds `x`. -/
def Carries (d : DKD K) (x : Edge) : Prop :=
  (d.uprev < RS ∧ ∃ t, d.g.ks[d.uprev]? = some (some t) ∧ x ∈ K.edges t) ∨
  (RS ≤ d.uprev ∧ ∃ t, d.tmp = some t ∧ x ∈ K.edges t)

theorem Carries.source {d : DKD K} {x : Edge} (h : d.Carries x) : d.Source := by
  rcases h with ⟨h1, t, h2, _⟩ | ⟨h1, t, h2, _⟩
  · exact Or.inl ⟨h1, t, h2⟩
  · exact Or.inr ⟨h1, Or.inl ⟨t, h2⟩⟩

/-- One call of `union_delay` marks nothing, and the next tree of the merge still holds `x`. -/
theorem unionLoop_few (hK : K.Lawful) : ∀ (f : Nat) (d d' : DKD K), d.g.ks.length = RS →
    AllValid K d.g.nv d.slots → d.ufinal < RS → d.ui + f = d.ufinal + 1 →
    (d.uprev < RS → d.uprev < d.ui ∧ (f = 0 → d.uprev < d.ufinal)) →
    (f = 0 → d.g.ks[d.ufinal]? = some none) → unionLoop f d = .ok d' →
    marks K d'.slots ≤ marks K d.slots ∧ ∀ x, d.Carries x → d'.ufinal < d'.ui ∨ d'.Carries x := by
  intro f
  induction f with
  | zero =>
    intro d d' hl hv hf hu hp hn h
    simp only [unionLoop, unionMove] at h
    split at h
    · rename_i hlt
      have hne : d.uprev ≠ d.ufinal := by have := (hp hlt).2 rfl; omega
      rw [Res.bind_eq_ok] at h; obtain ⟨p, h1, h⟩ := h
      rw [Res.bind_eq_ok] at h; obtain ⟨ks1, h2, h⟩ := h
      rw [Res.bind_eq_ok] at h; obtain ⟨ks2, h3, h⟩ := h
      rw [rd_eq_ok] at h1
      rw [wr_eq_ok] at h2 h3
      obtain ⟨h2, rfl⟩ := h2
      obtain ⟨h3, rfl⟩ := h3
      cases h
      refine ⟨?_, fun x _ => Or.inl (by simp; omega)⟩
      have e1 := marks_set (K := K) p (hn rfl)
      have e2 := marks_set (K := K) (i := d.uprev) (p := p) none (E := d.g.ks.set d.ufinal p)
        (by rw [List.getElem?_set_ne (by omega)]; exact h1)
      simp only [Option.elim] at e1 e2
      simp only [slots, marks_append]
      omega
    · rename_i hge
      rw [Res.bind_eq_ok] at h; obtain ⟨ks1, h2, h⟩ := h
      rw [wr_eq_ok] at h2
      obtain ⟨h2, rfl⟩ := h2
      cases h
      refine ⟨?_, fun x _ => Or.inl (by simp; omega)⟩
      have e1 := marks_set (K := K) d.tmp (hn rfl)
      simp only [slots, marks_append]
      have e2 : marks K [d.tmp] = d.tmp.elim 0 K.marked := by simp [marks]
      simp only [marks_none, marks_nil, e2]
      simp only [Option.elim] at e1 ⊢
      omega
  | succ f ih =>
    intro d d' hl hv hf hu hp hn h
    simp only [unionLoop] at h
    rw [Res.bind_eq_ok] at h; obtain ⟨o, h1, h⟩ := h
    rw [rd_eq_ok] at h1
    have hui : d.ui < d.g.ks.length := (List.getElem?_eq_some_iff.1 h1).1
    cases o with
    | none =>
      simp only at h
      exact ih { d with ui := d.ui + 1 } d' hl hv hf (by simp; omega)
        (fun h => by
          have := (hp h).1
          refine ⟨by simp; omega, ?_⟩
          intro hf0; simp only; omega)
        (fun hf0 => by
          have : d.ufinal = d.ui := by omega
          simp only; rw [this]; exact h1) h
    | some t =>
      have ht : some t ∈ d.slots := List.mem_append_left _ (List.mem_of_getElem? h1)
      simp only at h
      split at h
      · rename_i hlt
        have hpu := (hp hlt).1
        rw [Res.bind_eq_ok] at h; obtain ⟨p, h2, h⟩ := h
        rw [Res.bind_eq_ok] at h; obtain ⟨u, h3, h⟩ := h
        rw [Res.bind_eq_ok] at h; obtain ⟨ks1, h4, h⟩ := h
        rw [Res.bind_eq_ok] at h; obtain ⟨ks2, h5, h⟩ := h
        rw [rd_eq_ok] at h2
        rw [use_eq_ok] at h3
        rw [wr_eq_ok] at h4 h5
        obtain ⟨h4, rfl⟩ := h4
        obtain ⟨h5, rfl⟩ := h5
        subst h3
        cases h
        have hu' : some u ∈ d.slots := List.mem_append_left _ (List.mem_of_getElem? h2)
        have hz := hK.union_marked _ t u (hv t ht) (hv u hu')
        have he := hK.union_edges _ t u (hv t ht) (hv u hu')
        constructor
        · have e1 := marks_set (K := K) (some (K.union t u)) h1
          have e2 := marks_set (K := K) (i := d.uprev) (p := some u) none (E := d.g.ks.set d.ui (some (K.union t u)))
            (by rw [List.getElem?_set_ne (by omega)]; exact h2)
          simp only [Option.elim, hz] at e1 e2
          simp only [slots, marks_append]
          omega
        · intro x hx
          right; left
          refine ⟨by simp only; omega, K.union t u, ?_, ?_⟩
          · simp only
            rw [List.getElem?_set_ne (by omega)]
            simp [hui]
          · rw [he]
            rcases hx with ⟨_, t', hx1, hx2⟩ | ⟨hx1, _⟩
            · rw [h2] at hx1
              cases hx1
              exact Or.inr hx2
            · omega
      · rename_i hge
        rw [Res.bind_eq_ok] at h; obtain ⟨u, h3, h⟩ := h
        rw [Res.bind_eq_ok] at h; obtain ⟨ks1, h4, h⟩ := h
        rw [use_eq_ok] at h3
        rw [wr_eq_ok] at h4
        obtain ⟨h4, rfl⟩ := h4
        cases h
        have hu' : some u ∈ d.slots := List.mem_append_right _ (by rw [h3]; simp)
        have hz := hK.union_marked _ t u (hv t ht) (hv u hu')
        have he := hK.union_edges _ t u (hv t ht) (hv u hu')
        constructor
        · have e1 := marks_set (K := K) (some (K.union t u)) h1
          simp only [Option.elim, hz] at e1
          simp only [slots, marks_append, marks_none, marks_nil]
          omega
        · intro x hx
          right; left
          refine ⟨by simp only; omega, K.union t u, ?_, ?_⟩
          · simp [hui]
          · rw [he]
            rcases hx with ⟨hx1, _⟩ | ⟨_, t', hx1, hx2⟩
            · omega
            · rw [h3] at hx1
              cases hx1
              exact Or.inr hx2

theorem unionDelay_few (hK : K.Lawful) {d d' : DKD K} (hl : d.g.ks.length = RS)
    (hv : AllValid K d.g.nv d.slots) (hf : d.ufinal < RS) (hu : d.ui ≤ d.ufinal)
    (hp : d.uprev < RS → d.uprev < d.ui) (h : d.unionDelay = .ok d') :
    marks K d'.slots ≤ marks K d.slots ∧ ∀ x, d.Carries x → d'.ufinal < d'.ui ∨ d'.Carries x :=
  unionLoop_few hK _ d d' hl hv hf (by omega) (fun h => ⟨hp h, fun _ => by have := hp h; omega⟩)
    (fun h => by omega) h

theorem marks_slots_none {d : DKD K} (h : d.tmp = none) : marks K d.slots = marks K d.g.ks := by
  simp [slots, h, marks_append]

/-- `union_delay` on a graph without trees only counts. -/
theorem unionLoop_empty : ∀ (f : Nat) (x x' : DKD K), (∀ t, some t ∉ x.g.ks) → x.tmp = none → RS ≤ x.uprev →
    x.ui + f = x.ufinal + 1 → unionLoop f x = .ok x' → (∀ t, some t ∉ x'.g.ks) ∧ x'.ufinal < x'.ui := by
  intro f
  induction f with
  | zero =>
    intro x x' e1 e2 e3 e4 e5
    simp only [unionLoop, unionMove] at e5
    rw [if_neg (by omega), Res.bind_eq_ok] at e5
    obtain ⟨ks, e6, e7⟩ := e5
    rw [wr_eq_ok] at e6
    obtain ⟨e6, rfl⟩ := e6
    cases e7
    refine ⟨?_, by simp; omega⟩
    intro t ht
    rcases List.mem_or_eq_of_mem_set ht with h2 | h2
    · exact e1 t h2
    · rw [e2] at h2; cases h2
  | succ f ih =>
    intro x x' e1 e2 e3 e4 e5
    simp only [unionLoop] at e5
    rw [Res.bind_eq_ok] at e5
    obtain ⟨o, e6, e7⟩ := e5
    rw [rd_eq_ok] at e6
    cases o with
    | none =>
      simp only at e7
      exact ih { x with ui := x.ui + 1 } x' e1 e2 e3 (by simp; omega) e7
    | some t => exact absurd (List.mem_of_getElem? e6) (e1 t)

/-! ## del_edge -/

/-- A tree that holds another edge survives `del_edge`, and no tree appears or is emptied. -/
theorem eraseFirst_trees (hK : K.Lawful) {n : Nat} {e : Edge} (he : InRange n e) :
    ∀ {ks : List (Option K.T)}, AllValid K n ks →
      (∀ (i : Nat) t x, ks[i]? = some (some t) → x ∈ K.edges t → x ≠ e →
        ∃ t', (eraseFirst K e ks).2.2[i]? = some (some t') ∧ x ∈ K.edges t') ∧
      (∀ (i : Nat) t, (eraseFirst K e ks).2.2[i]? = some (some t) → ∃ t', ks[i]? = some (some t')) ∧
      ((∀ t, some t ∈ ks → K.edges t ≠ []) → ∀ t, some t ∈ (eraseFirst K e ks).2.2 → K.edges t ≠ []) := by
  intro ks
  induction ks with
  | nil => intro _; simp [eraseFirst]
  | cons o ks ih =>
    intro hv
    obtain ⟨i1, i2, i3⟩ := ih hv.tail
    cases o with
    | none =>
      simp only [eraseFirst]
      refine ⟨?_, ?_, ?_⟩
      · intro i t x h1 h2 h3
        cases i with
        | zero => simp at h1
        | succ i => simpa using i1 i t x (by simpa using h1) h2 h3
      · intro i t h1
        cases i with
        | zero => simp at h1
        | succ i => simpa using i2 i t (by simpa using h1)
      · intro hh t ht
        simp only [List.mem_cons, reduceCtorEq, false_or] at ht
        exact i3 (fun t ht => hh t (by simp [ht])) t ht
    | some t0 =>
      have hvt := hv.head
      have f1 := hK.erase_valid n t0 e hvt he
      have f2 := hK.erase_fst n t0 e hvt he
      have f3 := hK.erase_edges n t0 e hvt he
      have f4 := hK.adj_iff n t0 e hvt he
      have f6 := hK.total_eq n _ f1
      simp only [eraseFirst]
      by_cases hb : (K.erase t0 e).1 = true
      · simp only [hb, if_true]
        split
        · rename_i hmk
          have hnil : K.edges (K.erase t0 e).2 = [] := by
            apply List.length_eq_zero_iff.1; omega
          refine ⟨?_, ?_, ?_⟩
          · intro i t x h1 h2 h3
            cases i with
            | zero =>
              simp only [List.length_cons, Nat.zero_lt_succ, List.getElem?_eq_getElem, List.getElem_cons_zero,
                Option.some.injEq] at h1
              subst h1
              have := (f3 x).2 ⟨h2, h3⟩
              rw [hnil] at this; cases this
            | succ i => exact ⟨t, by simpa using h1, h2⟩
          · intro i t h1
            cases i with
            | zero => simp at h1
            | succ i => exact ⟨t, by simpa using h1⟩
          · intro hh t ht
            simp only [List.mem_cons, reduceCtorEq, false_or] at ht
            exact hh t (by simp [ht])
        · rename_i hmk
          refine ⟨?_, ?_, ?_⟩
          · intro i t x h1 h2 h3
            cases i with
            | zero =>
              simp only [List.length_cons, Nat.zero_lt_succ, List.getElem?_eq_getElem, List.getElem_cons_zero,
                Option.some.injEq] at h1
              subst h1
              exact ⟨_, by simp, (f3 x).2 ⟨h2, h3⟩⟩
            | succ i => exact ⟨t, by simpa using h1, h2⟩
          · intro i t h1
            cases i with
            | zero => exact ⟨t0, by simp⟩
            | succ i => exact ⟨t, by simpa using h1⟩
          · intro hh t ht
            simp only [List.mem_cons, Option.some.injEq] at ht
            rcases ht with rfl | ht
            · intro hc
              rw [hc] at f6
              simp only [List.length_nil] at f6
              omega
            · exact hh t (by simp [ht])
      · have hb' : (K.erase t0 e).1 = false := by simpa using hb
        have hnm : e ∉ K.edges t0 := fun hh => hb (by rw [f2]; exact f4.2 hh)
        simp only [hb', Bool.false_eq_true, if_false]
        refine ⟨?_, ?_, ?_⟩
        · intro i t x h1 h2 h3
          cases i with
          | zero =>
            simp only [List.length_cons, Nat.zero_lt_succ, List.getElem?_eq_getElem, List.getElem_cons_zero,
              Option.some.injEq] at h1
            subst h1
            exact ⟨_, by simp, (f3 x).2 ⟨h2, h3⟩⟩
          | succ i => simpa using i1 i t x (by simpa using h1) h2 h3
        · intro i t h1
          cases i with
          | zero => exact ⟨t0, by simp⟩
          | succ i => simpa using i2 i t (by simpa using h1)
        · intro hh t ht
          simp only [List.mem_cons, Option.some.injEq] at ht
          rcases ht with rfl | ht
          · have hx := hh t0 (by simp)
            cases hE : K.edges t0 with
            | nil => exact absurd hE hx
            | cons x l =>
              have hx2 : x ∈ K.edges t0 := by rw [hE]; simp
              have := (f3 x).2 ⟨hx2, fun h => hnm (h ▸ hx2)⟩
              intro hc; rw [hc] at this; cases this
          · exact i3 (fun t ht => hh t (by simp [ht])) t ht

/-- `del_edge` of an edge outside the buffer when the threshold is not reached: it returns, only the levels and the
counter change. -/
theorem delEdge_few (hK : K.Lawful) (hM : K.MarksOne) {S : Sizing} {d : DKD K} (hi : d.DInv) {e : Edge}
    (he : InRange d.g.nv e)
    (hq : e ∉ d.g.c0.live → ∀ k, k ≤ marks K d.g.ks + (if e ∈ d.g.edgesOf then 1 else 0) →
      S.rebuild k (if e ∈ d.g.edgesOf then decr d.g.nTotal else d.g.nTotal) = false) :
    ∃ d', d.delEdge S e = .ok d' ∧ d'.ui = d.ui ∧ d'.uprev = d.uprev ∧ d'.ufinal = d.ufinal ∧ d'.tmp = d.tmp ∧
      d'.g.maxR = d.g.maxR ∧ marks K d'.g.ks ≤ marks K d.g.ks + (if e ∈ d.g.edgesOf then 1 else 0) ∧
      (d.g.NoEmptyTree → d'.g.NoEmptyTree) ∧
      (∀ (i : Nat) t, d'.g.ks[i]? = some (some t) → ∃ t', d.g.ks[i]? = some (some t')) ∧
      (e ∉ d.g.c0.live → d'.g.c0 = d.g.c0) ∧
      (∀ (i : Nat) t x, d.g.ks[i]? = some (some t) → x ∈ K.edges t → x ≠ e →
        ∃ t', d'.g.ks[i]? = some (some t') ∧ x ∈ K.edges t') := by
  obtain ⟨c, a1, _⟩ := hi.inv.c0wf.erase_ok e
  unfold DKD.delEdge
  by_cases hl : e ∈ d.g.c0.live
  · rw [a1]
    simp only [Res.ok_bind, hl, decide_true, if_true]
    refine ⟨_, rfl, rfl, rfl, rfl, rfl, rfl, by simp, id, fun i t h => ⟨t, h⟩, fun h => absurd trivial h,
      fun i t x h1 h2 _ => ⟨t, h1, h2⟩⟩
  · have hc : c = d.g.c0 := by
      have : d.g.c0.edgeLst e = none := by
        unfold C0.erase at a1
        cases h : d.g.c0.edgeLst e with
        | none => rfl
        | some i =>
          rw [h] at a1
          simp only [hl, decide_false, Res.bind_eq_ok] at a1
          obtain ⟨_, _, _, _, h2⟩ := a1
          simp at h2
      unfold C0.erase at a1
      rw [this] at a1
      simp only [Res.ok.injEq, Prod.mk.injEq] at a1
      exact a1.2.symm
    subst hc
    have hq := hq hl
    obtain ⟨m1, m2⟩ := eraseFirst_marks hM he hi.inv.val
    obtain ⟨t1, t2, t3⟩ := eraseFirst_trees hK he hi.inv.val
    have hnd := hi.inv.nodup
    unfold edgesOf at hnd
    rw [List.nodup_append] at hnd
    have h3 := (eraseFirst_spec hK he hi.inv.val hnd.2.1).2.2.1
    have h4 : e ∈ d.g.edgesOf ↔ (eraseFirst K e d.g.ks).1 = true := by
      rw [h3]; unfold edgesOf; rw [List.mem_append]
      exact ⟨fun hh => hh.resolve_left hl, Or.inr⟩
    have h5 : (if (eraseFirst K e d.g.ks).1 then 1 else 0) = (if e ∈ d.g.edgesOf then 1 else 0) := by
      by_cases hb : e ∈ d.g.edgesOf
      · rw [if_pos hb, if_pos (h4.1 hb)]
      · rw [if_neg hb, if_neg (fun h => hb (h4.2 h))]
    have h6 : (if (eraseFirst K e d.g.ks).1 then decr d.g.nTotal else d.g.nTotal) =
        (if e ∈ d.g.edgesOf then decr d.g.nTotal else d.g.nTotal) := by
      by_cases hb : e ∈ d.g.edgesOf
      · rw [if_pos hb, if_pos (h4.1 hb)]
      · rw [if_neg hb, if_neg (fun h => hb (h4.2 h))]
    rw [h5] at m1 m2
    have hq' := hq _ m1
    rw [a1]
    simp only [Res.ok_bind, hl, decide_false, Bool.false_eq_true, if_false]
    have e1 : (afterErase { d.g with c0 := d.g.c0 } e).1 = (eraseFirst K e d.g.ks).2.1 := rfl
    have e2 : (afterErase { d.g with c0 := d.g.c0 } e).2.nTotal =
      (if (eraseFirst K e d.g.ks).1 then decr d.g.nTotal else d.g.nTotal) := rfl
    rw [e1, e2, h6, hq']
    simp only [Bool.false_eq_true, if_false]
    exact ⟨_, rfl, rfl, rfl, rfl, rfl, rfl, m2, t3, t2, fun _ => rfl, t1⟩

end DKD
end DK2
