import Verif.Delay
import Verif.Slots
import Verif.Hist
import Verif.DKMore
/-!
# Proofs about `DKtree_delay`
-/

namespace DK2
namespace DKD
open DK
variable {K : K2Impl}

/-- The levels with `tmp` as one more slot. -/
def slots (d : DKD K) : List (Option K.T) := d.g.ks ++ [d.tmp]

/-- What one call of `union_delay` preserves. -/
structure USpec (d d' : DKD K) : Prop where
  g : ∃ ks, d'.g = { d.g with ks := ks }
  len : d'.g.ks.length = RS
  val : AllValid K d.g.nv d'.slots
  mem : ∀ e, e ∈ flat K d'.slots ↔ e ∈ flat K d.slots
  nodup : (flat K d.slots).Nodup → (flat K d'.slots).Nodup
  fin : d'.ufinal = d.ufinal
  ui : d.ui < d'.ui
  prev : d'.uprev < RS → d'.uprev < d'.ui
  tmp : RS ≤ d.uprev ∨ d.tmp = none → d'.tmp = none
  above : ∀ (i : Nat) (t : K.T), d'.g.ks[i]? = some (some t) →
    i ≤ d.ufinal ∨ d.g.ks[i]? = some (some t)
  occ : d.g.ks.length = RS →
    d'.ufinal < d'.ui ∨ (d'.uprev < RS ∧ ∃ t, d'.g.ks[d'.uprev]? = some (some t))
  marked : (∀ t, some t ∈ d.slots → K.marked t = 0) → (∀ t, some t ∈ d'.slots → K.marked t = 0)

theorem slots_set {ks : List (Option K.T)} {i : Nat} (o p : Option K.T) (h : i < ks.length) :
    ks.set i o ++ [p] = (ks ++ [p]).set i o := by
  rw [List.set_append_left _ _ h]

theorem slots_last {ks : List (Option K.T)} (o p : Option K.T) :
    ks ++ [o] = (ks ++ [p]).set ks.length o := by
  rw [List.set_append_right _ _ (Nat.le_refl _)]; simp

theorem marked_merge (hK : K.Lawful) {n p q : Nat} {a b : K.T} {E : List (Option K.T)}
    (hv : AllValid K n E) (hp : E[p]? = some (some b)) (hq : E[q]? = some (some a))
    (h : ∀ t, some t ∈ E → K.marked t = 0) :
    ∀ t, some t ∈ (E.set q (some (K.union a b))).set p none → K.marked t = 0 := by
  intro t ht
  rcases List.mem_or_eq_of_mem_set ht with h1 | h1
  · rcases List.mem_or_eq_of_mem_set h1 with h2 | h2
    · exact h t h2
    · cases h2
      exact hK.union_marked n a b (hv a (List.mem_of_getElem? hq)) (hv b (List.mem_of_getElem? hp))
  · cases h1

theorem marked_move {p q : Nat} {o : Option K.T} {E : List (Option K.T)} (hp : E[p]? = some o)
    (h : ∀ t, some t ∈ E → K.marked t = 0) :
    ∀ t, some t ∈ (E.set q o).set p none → K.marked t = 0 := by
  intro t ht
  rcases List.mem_or_eq_of_mem_set ht with h1 | h1
  · rcases List.mem_or_eq_of_mem_set h1 with h2 | h2
    · exact h t h2
    · exact h t (h2 ▸ List.mem_of_getElem? hp)
  · cases h1

theorem unionMove_spec {d d' : DKD K} (hl : d.g.ks.length = RS)
    (hv : AllValid K d.g.nv d.slots) (hf : d.ufinal < RS) (hu : d.ui = d.ufinal + 1)
    (hp : d.uprev < RS → d.uprev < d.ufinal) (hn : d.g.ks[d.ufinal]? = some none)
    (h : d.unionMove = .ok d') : USpec d d' := by
  unfold unionMove at h
  split at h
  · rename_i hlt
    have hne : d.uprev ≠ d.ufinal := by have := hp hlt; omega
    rw [Res.bind_eq_ok] at h; obtain ⟨p, h1, h⟩ := h
    rw [Res.bind_eq_ok] at h; obtain ⟨ks1, h2, h⟩ := h
    rw [Res.bind_eq_ok] at h; obtain ⟨ks2, h3, h⟩ := h
    rw [rd_eq_ok] at h1
    rw [wr_eq_ok] at h2 h3
    obtain ⟨h2, rfl⟩ := h2
    obtain ⟨h3, rfl⟩ := h3
    cases h
    have hE : ((d.g.ks.set d.ufinal p).set d.uprev none) ++ [d.tmp]
        = (d.slots.set d.ufinal p).set d.uprev none := by
      rw [slots_set _ _ h3, slots_set _ _ h2]; rfl
    have e1 : d.slots[d.uprev]? = some p := by
      unfold slots; rw [List.getElem?_append_left (by omega)]; exact h1
    have e2 : d.slots[d.ufinal]? = some none := by
      unfold slots; rw [List.getElem?_append_left (by omega)]; exact hn
    obtain ⟨m1, m2, m3⟩ := flat_move (K := K) hv hne e1 e2
    have mk := marked_move (K := K) (q := d.ufinal) e1
    rw [← hE] at m1 m2 m3 mk
    refine ⟨⟨_, rfl⟩, by simp [hl], m1, m2, m3, rfl, by simp, ?_, ?_, ?_, ?_, mk⟩
    · intro _; simp; omega
    · rintro (h | h)
      · omega
      · exact h
    · intro i t hi
      simp only at hi
      rw [List.getElem?_set] at hi
      split at hi
      · simp at hi
      · rw [List.getElem?_set] at hi
        split at hi
        · left; omega
        · right; exact hi
    · intro _; left; simp; omega
  · rename_i hge
    rw [Res.bind_eq_ok] at h; obtain ⟨ks1, h2, h⟩ := h
    rw [wr_eq_ok] at h2
    obtain ⟨h2, rfl⟩ := h2
    cases h
    have hE : (d.g.ks.set d.ufinal d.tmp) ++ [none]
        = (d.slots.set d.ufinal d.tmp).set d.g.ks.length none := by
      have := slots_last (ks := d.g.ks.set d.ufinal d.tmp) none d.tmp
      rw [this, slots_set _ _ h2, List.length_set]; rfl
    have e1 : d.slots[d.g.ks.length]? = some d.tmp := by simp [slots]
    have e2 : d.slots[d.ufinal]? = some none := by
      unfold slots; rw [List.getElem?_append_left (by omega)]; exact hn
    obtain ⟨m1, m2, m3⟩ := flat_move (K := K) hv (by omega) e1 e2
    have mk := marked_move (K := K) (q := d.ufinal) e1
    rw [← hE] at m1 m2 m3 mk
    refine ⟨⟨_, rfl⟩, by simp [hl], m1, m2, m3, rfl, by simp, ?_, ?_, ?_, ?_, mk⟩
    · intro h; simp at h; omega
    · intro _; rfl
    · intro i t hi
      simp only at hi
      rw [List.getElem?_set] at hi
      split at hi
      · left; omega
      · right; exact hi
    · intro _; left; simp; omega

theorem unionLoop_spec (hK : K.Lawful) : ∀ (f : Nat) (d d' : DKD K), d.g.ks.length = RS →
    AllValid K d.g.nv d.slots → d.ufinal < RS → d.ui + f = d.ufinal + 1 →
    (d.uprev < RS → d.uprev < d.ui ∧ (f = 0 → d.uprev < d.ufinal)) →
    (f = 0 → d.g.ks[d.ufinal]? = some none) → unionLoop f d = .ok d' → USpec d d' := by
  intro f
  induction f with
  | zero =>
    intro d d' hl hv hf hu hp hn h
    exact unionMove_spec hl hv hf (by omega) (fun h => (hp h).2 rfl) (hn rfl) h
  | succ f ih =>
    intro d d' hl hv hf hu hp hn h
    simp only [unionLoop] at h
    rw [Res.bind_eq_ok] at h; obtain ⟨o, h1, h⟩ := h
    rw [rd_eq_ok] at h1
    have hui : d.ui < d.g.ks.length := (List.getElem?_eq_some_iff.1 h1).1
    cases o with
    | none =>
      simp only at h
      have := ih { d with ui := d.ui + 1 } d' hl hv hf (by simp; omega)
        (fun h => by
          have := (hp h).1
          refine ⟨by simp; omega, ?_⟩
          intro hf0; simp only; omega)
        (fun hf0 => by
          have : d.ufinal = d.ui := by omega
          simp only; rw [this]; exact h1) h
      exact ⟨this.g, this.len, this.val, this.mem, this.nodup, this.fin,
        by have := this.ui; simp only at this; omega, this.prev, this.tmp, this.above, this.occ, this.marked⟩
    | some t =>
      simp only at h
      split at h
      · rename_i hlt
        have hpu := (hp hlt).1
        rw [Res.bind_eq_ok] at h; obtain ⟨p, h2, h⟩ := h
        rw [Res.bind_eq_ok] at h; obtain ⟨u, h3, h⟩ := h
        rw [Res.bind_eq_ok] at h; obtain ⟨ks1, h4, h⟩ := h
        rw [Res.bind_eq_ok] at h; obtain ⟨ks2, h5, h⟩ := h
        rw [rd_eq_ok] at h2
        rw [use_eq_ok] at h3
        rw [wr_eq_ok] at h4 h5
        obtain ⟨h4, rfl⟩ := h4
        obtain ⟨h5, rfl⟩ := h5
        subst h3
        cases h
        have hE : ((d.g.ks.set d.ui (some (K.union t u))).set d.uprev none) ++ [d.tmp]
            = (d.slots.set d.ui (some (K.union t u))).set d.uprev none := by
          rw [slots_set _ _ h5, slots_set _ _ h4]; rfl
        have e1 : d.slots[d.uprev]? = some (some u) := by
          unfold slots; rw [List.getElem?_append_left (by omega)]; exact h2
        have e2 : d.slots[d.ui]? = some (some t) := by
          unfold slots; rw [List.getElem?_append_left (by omega)]; exact h1
        obtain ⟨m1, m2, m3⟩ := flat_merge hK hv (by omega) e1 e2
        have mk := marked_merge hK hv e1 e2
        rw [← hE] at m1 m2 m3 mk
        refine ⟨⟨_, rfl⟩, by simp [hl], m1, m2, m3, rfl, by simp, ?_, ?_, ?_, ?_, mk⟩
        · intro _; simp
        · rintro (h | h)
          · omega
          · exact h
        · intro i t hi
          simp only at hi
          rw [List.getElem?_set] at hi
          split at hi
          · simp at hi
          · rw [List.getElem?_set] at hi
            split at hi
            · left; omega
            · right; exact hi
        · intro _; right
          refine ⟨by simp; omega, K.union t u, ?_⟩
          simp only
          rw [List.getElem?_set_ne (by omega)]
          simp [hui]
      · rename_i hge
        rw [Res.bind_eq_ok] at h; obtain ⟨u, h3, h⟩ := h
        rw [Res.bind_eq_ok] at h; obtain ⟨ks1, h4, h⟩ := h
        rw [use_eq_ok] at h3
        rw [wr_eq_ok] at h4
        obtain ⟨h4, rfl⟩ := h4
        cases h
        have hE : (d.g.ks.set d.ui (some (K.union t u))) ++ [none]
            = (d.slots.set d.ui (some (K.union t u))).set d.g.ks.length none := by
          have := slots_last (ks := d.g.ks.set d.ui (some (K.union t u))) none d.tmp
          rw [this, slots_set _ _ h4, List.length_set]; rfl
        have e1 : d.slots[d.g.ks.length]? = some (some u) := by simp [slots, h3]
        have e2 : d.slots[d.ui]? = some (some t) := by
          unfold slots; rw [List.getElem?_append_left (by omega)]; exact h1
        obtain ⟨m1, m2, m3⟩ := flat_merge hK hv (by omega) e1 e2
        have mk := marked_merge hK hv e1 e2
        rw [← hE] at m1 m2 m3 mk
        refine ⟨⟨_, rfl⟩, by simp [hl], m1, m2, m3, rfl, by simp, ?_, ?_, ?_, ?_, mk⟩
        · intro _; simp
        · intro _; rfl
        · intro i t hi
          simp only at hi
          rw [List.getElem?_set] at hi
          split at hi
          · left; omega
          · right; exact hi
        · intro _; right
          refine ⟨by simp; omega, K.union t u, ?_⟩
          simp [hui]

/-- One call of `union_delay` on a pending merge. -/
theorem unionDelay_spec (hK : K.Lawful) {d d' : DKD K} (hl : d.g.ks.length = RS)
    (hv : AllValid K d.g.nv d.slots) (hf : d.ufinal < RS) (hu : d.ui ≤ d.ufinal)
    (hp : d.uprev < RS → d.uprev < d.ui) (h : d.unionDelay = .ok d') : USpec d d' :=
  unionLoop_spec hK _ d d' hl hv hf (by omega) (fun h => ⟨hp h, fun _ => by have := hp h; omega⟩)
    (fun h => by omega) h

/-- The source of the merge exists (or there is nothing at all to merge). -/
def Source (d : DKD K) : Prop :=
  (d.uprev < RS ∧ ∃ t, d.g.ks[d.uprev]? = some (some t)) ∨
  (RS ≤ d.uprev ∧ ((∃ t, d.tmp = some t) ∨ ∀ t, some t ∉ d.g.ks))

theorem unionLoop_ok : ∀ (f : Nat) (d : DKD K), d.g.ks.length = RS → d.ufinal < RS →
    d.ui + f = d.ufinal + 1 → d.Source → ∃ d', unionLoop f d = .ok d' := by
  intro f
  induction f with
  | zero =>
    intro d hl hf hu hs
    simp only [unionLoop, unionMove]
    split
    · rename_i hlt
      obtain ⟨p, hp⟩ : ∃ p, d.g.ks[d.uprev]? = some p := ⟨_, List.getElem?_eq_getElem (by omega)⟩
      rw [rd_of hp]
      simp only [Res.ok_bind]
      rw [wr_of (by omega)]
      simp only [Res.ok_bind]
      rw [wr_of (by simp; omega)]
      exact ⟨_, rfl⟩
    · rw [wr_of (by omega)]
      exact ⟨_, rfl⟩
  | succ f ih =>
    intro d hl hf hu hs
    have hui : d.ui < d.g.ks.length := by omega
    simp only [unionLoop]
    rw [rd_of (List.getElem?_eq_getElem hui)]
    simp only [Res.ok_bind]
    cases ho : d.g.ks[d.ui] with
    | none => exact ih _ hl hf (by simp; omega) hs
    | some t =>
      have hmem : some t ∈ d.g.ks := ho ▸ List.getElem_mem hui
      simp only
      rcases hs with ⟨h1, u, h2⟩ | ⟨h1, h2⟩
      · rw [if_pos h1, rd_of h2]
        simp only [Res.ok_bind, use]
        rw [wr_of hui]
        simp only [Res.ok_bind]
        rw [wr_of (by simp; omega)]
        exact ⟨_, rfl⟩
      · rw [if_neg (by omega)]
        rcases h2 with ⟨u, h2⟩ | h2
        · rw [h2]
          simp only [Res.ok_bind, use]
          rw [wr_of hui]
          exact ⟨_, rfl⟩
        · exact absurd hmem (h2 t)

theorem unionDelay_ok {d : DKD K} (hl : d.g.ks.length = RS) (hf : d.ufinal < RS)
    (hu : d.ui ≤ d.ufinal) (hs : d.Source) : ∃ d', d.unionDelay = .ok d' :=
  unionLoop_ok _ d hl hf (by omega) hs

/-! ## Invariant -/

/-- Invariant of `DKtree_delay` between two calls. -/
structure DInv (d : DKD K) : Prop where
  inv : d.g.Inv
  tmp : d.tmp = none
  fin : d.ui ≤ d.ufinal → d.ufinal < RS
  prev : d.uprev < RS → d.uprev < d.ui

theorem init_dinv (S : Sizing) (n : Nat) : (init K S n).DInv where
  inv := DK.init_inv S n
  tmp := rfl
  fin := by intro _; simp [init, RS]
  prev := by intro h; simp [init] at h

theorem flat_slots_none {d : DKD K} (h : d.tmp = none) : flat K d.slots = flat K d.g.ks := by
  simp [slots, h]

theorem allValid_slots {n : Nat} {ks : List (Option K.T)} {o : Option K.T} :
    AllValid K n (ks ++ [o]) ↔ AllValid K n ks ∧ ∀ t, o = some t → K.valid n t := by
  constructor
  · intro h
    exact ⟨fun t ht => h t (by simp [ht]), fun t ht => h t (by simp [ht])⟩
  · rintro ⟨h1, h2⟩ t ht
    rcases List.mem_append.1 ht with h | h
    · exact h1 t h
    · simp at h; exact h2 t h.symm

/-- A `union_delay` step whose result has no `tmp` gives the invariant back and keeps the edges. -/
theorem USpec.dinv {d d' : DKD K} (u : USpec d d') (hc : d.g.c0.WF) (hcn : d.g.c0.nVertices = d.g.nv)
    (hm : d.g.maxR < RS) (hr : ∀ e ∈ d.g.c0.live ++ flat K d.slots, InRange d.g.nv e)
    (hnd : (d.g.c0.live ++ flat K d.slots).Nodup) (hf : d.ufinal < RS)
    (ht : RS ≤ d.uprev ∨ d.tmp = none) :
    d'.DInv ∧ (∀ e, e ∈ d'.g.edgesOf ↔ e ∈ d.g.c0.live ++ flat K d.slots) ∧ d'.g.nv = d.g.nv ∧
      d'.g.c0 = d.g.c0 ∧ d'.g.nTotal = d.g.nTotal ∧ d'.g.maxR = d.g.maxR := by
  obtain ⟨ks, hg⟩ := u.g
  have htmp := u.tmp ht
  have hfl := flat_slots_none htmp
  have hmem : ∀ e, e ∈ d'.g.edgesOf ↔ e ∈ d.g.c0.live ++ flat K d.slots := by
    intro e
    rw [List.mem_append, ← u.mem, hfl]
    unfold edgesOf
    rw [List.mem_append, hg]
  have hval := (allValid_slots.1 u.val).1
  refine ⟨⟨⟨⟨?_, ?_, u.len, ?_, ?_, ?_⟩, ?_⟩, htmp, fun _ => by rw [u.fin]; exact hf, u.prev⟩, hmem,
    by rw [hg], by rw [hg], by rw [hg], by rw [hg]⟩
  · rw [hg]; exact hc
  · rw [hg]; exact hcn
  · have : d'.g.nv = d.g.nv := by rw [hg]
    rw [this]; exact hval
  · rw [hg]; exact hm
  · intro e he
    have : d'.g.nv = d.g.nv := by rw [hg]
    rw [this]
    exact hr e ((hmem e).1 he)
  · rw [List.nodup_append] at hnd
    have h1 := u.nodup hnd.2.1
    rw [hfl] at h1
    unfold edgesOf
    have hc0 : d'.g.c0 = d.g.c0 := by rw [hg]
    rw [hc0, List.nodup_append]
    refine ⟨hnd.1, h1, ?_⟩
    intro a ha b hb
    exact hnd.2.2 a ha b ((u.mem b).1 (by rw [hfl]; exact hb))

/-- A `union_delay` step between calls. -/
theorem DInv.unionDelay (hK : K.Lawful) {d d' : DKD K} (h : d.DInv) (hu : d.ui ≤ d.ufinal)
    (hr : d.unionDelay = .ok d') :
    USpec d d' ∧ d'.DInv ∧ (∀ e, e ∈ d'.g.edgesOf ↔ e ∈ d.g.edgesOf) ∧ d'.g.nv = d.g.nv ∧
      d'.g.c0 = d.g.c0 ∧ d'.g.nTotal = d.g.nTotal ∧ d'.g.maxR = d.g.maxR := by
  have hv : AllValid K d.g.nv d.slots := allValid_slots.2 ⟨h.inv.val, by simp [h.tmp]⟩
  have u := unionDelay_spec hK h.inv.len hv (h.fin hu) hu h.prev hr
  have hE : d.g.c0.live ++ flat K d.slots = d.g.edgesOf := by rw [flat_slots_none h.tmp]; rfl
  have hx := u.dinv h.inv.c0wf h.inv.c0nv h.inv.maxR_lt (by rw [hE]; exact h.inv.range)
    (by rw [hE]; exact h.inv.nodup) (h.fin hu) (Or.inr h.tmp)
  rw [hE] at hx
  exact ⟨u, hx⟩

theorem DInv.pre (hK : K.Lawful) {d d' : DKD K} (h : d.DInv) (hr : d.pre = .ok d') :
    d'.DInv ∧ (∀ e, e ∈ d'.g.edgesOf ↔ e ∈ d.g.edgesOf) ∧ d'.g.nv = d.g.nv ∧
      d'.g.c0 = d.g.c0 ∧ d'.g.nTotal = d.g.nTotal ∧ d'.g.maxR = d.g.maxR := by
  unfold DKD.pre workDone at hr
  split at hr
  · cases hr; exact ⟨h, fun _ => Iff.rfl, rfl, rfl, rfl, rfl⟩
  · rename_i hw
    exact (h.unionDelay hK (by simpa using hw) hr).2

theorem build_live {g : DK K} (hK : K.Lawful) (h : g.Inv) {e : Edge} (he : InRange g.nv e)
    (hm : e ∉ g.edgesOf) :
    K.valid g.nv (K.build (g.c0.live ++ [e]) g.nv) ∧
    (∀ e', e' ∈ K.edges (K.build (g.c0.live ++ [e]) g.nv) ↔ e' ∈ g.c0.live ∨ e' = e) ∧
    K.marked (K.build (g.c0.live ++ [e]) g.nv) = 0 := by
  have hl : e ∉ g.c0.live := fun hh => hm (List.mem_append_left _ hh)
  have hnd : (g.c0.live ++ [e]).Nodup := by
    rw [List.nodup_append]
    exact ⟨h.c0wf.live_nodup, by simp, by
      intro a ha b hb hab; simp at hb; exact hl (hb ▸ hab ▸ ha)⟩
  have hrg : ∀ e' ∈ g.c0.live ++ [e], InRange g.nv e' := by
    intro e' he'
    rcases List.mem_append.1 he' with h1 | h1
    · exact h.range e' (List.mem_append_left _ h1)
    · simp at h1; exact h1 ▸ he
  refine ⟨hK.build_valid _ _ hnd hrg, ?_, hK.build_marked _ _ hnd hrg⟩
  intro e'
  rw [hK.build_edges _ _ hnd hrg]
  simp

/-- The flush branch. -/
theorem DInv.flush (hK : K.Lawful) {S : Sizing} {d d' : DKD K} (h : d.DInv) {e : Edge}
    (he : InRange d.g.nv e) (hm : e ∉ d.g.edgesOf) (hr : d.flush S e = .ok d') :
    d'.DInv ∧ d'.g.nv = d.g.nv ∧ (∀ e', e' ∈ d'.g.edgesOf ↔ e' = e ∨ e' ∈ d.g.edgesOf) ∧
    d'.g.nTotal = d.g.nTotal + 1 := by
  unfold DKD.flush at hr
  split at hr
  · cases hr
  · rename_i i hsel
    have hi := (selectLevel_lt S _ _ _ _ _ hsel).2
    rw [Nat.zero_add, h.inv.len] at hi
    rw [h.inv.c0wf.converted_eq] at hr
    obtain ⟨c', b1, b2, b3, b4, b5, b6, b7⟩ := h.inv.c0wf.clean_ok
    simp only [Res.ok_bind, b1] at hr
    rw [Res.bind_eq_ok] at hr
    obtain ⟨d1, h1, hr⟩ := hr
    cases hr
    obtain ⟨v1, v2, v3⟩ := build_live hK h.inv he hm
    have hv : AllValid K d.g.nv (d.g.ks ++ [some (K.build (d.g.c0.live ++ [e]) d.g.nv)]) :=
      allValid_slots.2 ⟨h.inv.val, by intro t ht; cases ht; exact v1⟩
    have u := unionDelay_spec hK (d := ⟨{ d.g with maxR := max i d.g.maxR, c0 := c' }, 0, RS, i,
      some (K.build (d.g.c0.live ++ [e]) d.g.nv)⟩) h.inv.len hv hi (by simp) (by simp) h1
    have hnd := h.inv.nodup
    unfold edgesOf at hnd hm
    rw [List.nodup_append] at hnd
    have hmem : ∀ e', e' ∈ c'.live ++ flat K (d.g.ks ++ [some (K.build (d.g.c0.live ++ [e]) d.g.nv)])
        ↔ e' = e ∨ e' ∈ d.g.edgesOf := by
      intro e'
      rw [b3, List.nil_append, flat_append, List.mem_append, flat_some, flat_nil, List.append_nil, v2]
      unfold edgesOf
      rw [List.mem_append]
      tauto
    obtain ⟨x1, x2, x3, x4, x5, x6⟩ := u.dinv b2 (by simp [b7, h.inv.c0nv])
      (by have := h.inv.maxR_lt; simp; omega)
      (by
        intro e' he'
        rcases (hmem e').1 he' with h2 | h2
        · exact h2 ▸ he
        · exact h.inv.range e' h2)
      (by
        simp only [slots, b3, List.nil_append, flat_append, flat_some, flat_nil, List.append_nil]
        rw [List.nodup_append]
        refine ⟨hnd.2.1, hK.edges_nodup _ _ v1, ?_⟩
        rintro a ha b hb rfl
        rcases (v2 a).1 hb with h2 | h2
        · exact hnd.2.2 a h2 a ha rfl
        · exact hm (List.mem_append_right _ (h2 ▸ ha)))
      hi (Or.inl (Nat.le_refl _))
    have x1' := x1
    refine ⟨⟨⟨⟨x1.inv.c0wf, x1.inv.c0nv, x1.inv.len, x1.inv.val, x1.inv.maxR_lt, x1.inv.range⟩,
      x1.inv.nodup⟩, x1.tmp, x1.fin, x1.prev⟩, x3, ?_, ?_⟩
    · intro e'
      rw [← hmem]; exact x2 e'
    · simp only [x5]

/-- What a returning `add_edge` (with assertions on) does. -/
theorem DInv.addEdge (hK : K.Lawful) (S : Sizing) {d d' : DKD K} (h : d.DInv) {e : Edge}
    (he : InRange d.g.nv e) (hr : d.addEdge false S e = .ok d') :
    d'.DInv ∧ d'.g.nv = d.g.nv ∧ (∀ e', e' ∈ d'.g.edgesOf ↔ e' = e ∨ e' ∈ d.g.edgesOf) ∧
    d'.g.nTotal = (if e ∈ d.g.edgesOf then d.g.nTotal else d.g.nTotal + 1) := by
  unfold DKD.addEdge at hr
  rw [Res.bind_eq_ok] at hr
  obtain ⟨d1, h1, hr⟩ := hr
  obtain ⟨p1, p2, p3, p4, p5, p6⟩ := h.pre hK (d' := d1) h1
  have he1 : InRange d1.g.nv e := by rw [p3]; exact he
  unfold DKD.contains at hr
  rw [p1.inv.contains_eq hK he1] at hr
  simp only [Res.ok_bind] at hr
  by_cases hm : e ∈ d1.g.edgesOf
  · simp only [hm, decide_true, if_true, Res.ok.injEq] at hr
    subst hr
    refine ⟨p1, p3, ?_, ?_⟩
    · intro e'
      rw [p2]
      constructor
      · exact Or.inr
      · rintro (rfl | h')
        · exact (p2 _).1 hm
        · exact h'
    · rw [if_pos ((p2 e).1 hm), p5]
  · simp only [hm, decide_false, Bool.false_eq_true, if_false] at hr
    have hl : e ∉ d1.g.c0.live := fun hh => hm (List.mem_append_left _ hh)
    rw [if_neg (fun hh => hm ((p2 e).2 hh))]
    split at hr
    · rw [Res.bind_eq_ok] at hr
      obtain ⟨c, hc, hr⟩ := hr
      simp only [Res.ok.injEq] at hr
      by_cases hroom : d1.g.c0.room S d1.g.nTotal
      · obtain ⟨c', a1, a2, a3, a4, a5, a6⟩ := C0.insert_absent p1.inv.c0wf hl hroom
        rw [a1] at hc
        simp only [Res.ok.injEq] at hc
        subst hc; subst hr
        have hm2 : ∀ e', e' ∈ edgesOf { d1.g with c0 := c', nTotal := d1.g.nTotal + 1 } ↔
            e' = e ∨ e' ∈ d1.g.edgesOf := by
          intro e'
          simp only [edgesOf, a3, List.mem_append, List.mem_singleton]
          tauto
        refine ⟨⟨⟨⟨a2, by simp [a6, p1.inv.c0nv], p1.inv.len, p1.inv.val, p1.inv.maxR_lt, ?_⟩, ?_⟩,
          p1.tmp, p1.fin, p1.prev⟩, p3, ?_, by simp [p5]⟩
        · intro e' he'
          rcases (hm2 e').1 he' with rfl | h2
          · exact he1
          · exact p1.inv.range e' h2
        · have hnd := p1.inv.nodup
          unfold edgesOf at hnd hm ⊢
          simp only [a3]
          rw [List.append_assoc, List.nodup_append]
          rw [List.nodup_append] at hnd
          refine ⟨hnd.1, ?_, ?_⟩
          · simp only [List.singleton_append, List.nodup_cons]
            exact ⟨fun hh => hm (List.mem_append_right _ hh), hnd.2.1⟩
          · intro a ha b hb
            simp only [List.singleton_append, List.mem_cons] at hb
            rcases hb with rfl | hb
            · rintro rfl; exact hl ha
            · exact hnd.2.2 a ha b hb
        · intro e'
          rw [hm2, p2]
      · rw [C0.insert_noroom p1.inv.c0wf hl hroom] at hc
        cases hc
    · split at hr
      · obtain ⟨f1, f2, f3, f4⟩ := p1.flush hK he1 hm hr
        refine ⟨f1, by rw [f2, p3], ?_, by rw [f4, p5]⟩
        intro e'; rw [f3, p2]
      · cases hr

/-! ## del_edge -/

theorem eraseFirst_spec (hK : K.Lawful) {n : Nat} {e : Edge} (he : InRange n e) :
    ∀ {ks : List (Option K.T)}, AllValid K n ks → (flat K ks).Nodup →
      AllValid K n (eraseFirst K e ks).2.2 ∧ (eraseFirst K e ks).2.2.length = ks.length ∧
      ((eraseFirst K e ks).1 = true ↔ e ∈ flat K ks) ∧
      (∀ e', e' ∈ flat K (eraseFirst K e ks).2.2 ↔ e' ∈ flat K ks ∧ e' ≠ e) ∧
      (flat K (eraseFirst K e ks).2.2).Nodup := by
  intro ks
  induction ks with
  | nil => intro h _; simp [eraseFirst, h]
  | cons o ks ih =>
    intro hv hnd
    cases o with
    | none =>
      obtain ⟨i1, i2, i3, i4, i5⟩ := ih hv.tail (by simpa using hnd)
      simp only [eraseFirst, flat_none]
      refine ⟨?_, by simp [i2], i3, i4, i5⟩
      intro t ht; simp at ht; exact i1 t ht
    | some t =>
      rw [flat_some, List.nodup_append] at hnd
      obtain ⟨i1, i2, i3, i4, i5⟩ := ih hv.tail hnd.2.1
      have hvt := hv.head
      have f1 := hK.erase_valid n t e hvt he
      have f2 := hK.erase_fst n t e hvt he
      have f3 := hK.erase_edges n t e hvt he
      have f4 := hK.adj_iff n t e hvt he
      have f5 := hK.edges_nodup n _ f1
      have f6 := hK.total_eq n _ f1
      simp only [eraseFirst]
      by_cases hb : (K.erase t e).1 = true
      · have hmem : e ∈ K.edges t := f4.1 (f2 ▸ hb)
        have hnot : e ∉ flat K ks := fun hh => hnd.2.2 e hmem e hh rfl
        have key : ∀ e', (e' ∈ K.edges (K.erase t e).2 ∨ e' ∈ flat K ks) ↔
            (e' ∈ K.edges t ∨ e' ∈ flat K ks) ∧ e' ≠ e := by
          intro e'
          rw [f3]
          constructor
          · rintro (⟨h1, h2⟩ | h1)
            · exact ⟨Or.inl h1, h2⟩
            · exact ⟨Or.inr h1, fun hh => hnot (hh ▸ h1)⟩
          · rintro ⟨h1 | h1, h2⟩
            · exact Or.inl ⟨h1, h2⟩
            · exact Or.inr h1
        simp only [hb, if_true]
        split
        · rename_i hmk
          have hnil : K.edges (K.erase t e).2 = [] := by
            apply List.length_eq_zero_iff.1; omega
          refine ⟨?_, by simp, by simp [hmem], ?_, by simpa using hnd.2.1⟩
          · intro t' ht'; simp at ht'; exact hv.tail t' ht'
          · intro e'
            have := key e'
            rw [hnil] at this
            rw [flat_none, flat_some, List.mem_append, ← this]
            simp
        · refine ⟨?_, by simp, by simp [hmem], ?_, ?_⟩
          · intro t' ht'
            simp at ht'
            rcases ht' with rfl | h
            · exact f1
            · exact hv.tail t' h
          · intro e'
            rw [flat_some, flat_some, List.mem_append, List.mem_append]
            exact key e'
          · rw [flat_some, List.nodup_append]
            exact ⟨f5, hnd.2.1, fun a ha b hb => hnd.2.2 a ((f3 a).1 ha).1 b hb⟩
      · have hnm : e ∉ K.edges t := fun hh => hb (by rw [f2]; exact f4.2 hh)
        have hb' : (K.erase t e).1 = false := by simpa using hb
        simp only [hb', Bool.false_eq_true, if_false]
        refine ⟨?_, by simp [i2], ?_, ?_, ?_⟩
        · intro t' ht'
          simp at ht'
          rcases ht' with rfl | h
          · exact f1
          · exact i1 t' h
        · rw [i3, flat_some, List.mem_append]
          exact ⟨Or.inr, fun hh => hh.resolve_left hnm⟩
        · intro e'
          rw [flat_some, flat_some, List.mem_append, List.mem_append, f3, i4]
          constructor
          · rintro (⟨h1, h2⟩ | ⟨h1, h2⟩)
            · exact ⟨Or.inl h1, h2⟩
            · exact ⟨Or.inr h1, h2⟩
          · rintro ⟨h1 | h1, h2⟩
            · exact Or.inl ⟨h1, h2⟩
            · exact Or.inr ⟨h1, h2⟩
        · rw [flat_some, List.nodup_append]
          exact ⟨f5, i5, fun a ha b hb => hnd.2.2 a ((f3 a).1 ha).1 b ((i4 b).1 hb).1⟩

theorem rebuildTmp_spec (hK : K.Lawful) {g : DK K} (h : g.Inv) :
    ∃ t c, rebuildTmp g = .ok (t, c) ∧ K.valid g.nv t ∧ (∀ e, e ∈ K.edges t ↔ e ∈ g.c0.live) ∧
      c.WF ∧ c.nVertices = g.nv ∧ c.live = [] := by
  unfold rebuildTmp
  have hsz := h.c0wf.size_eq
  split
  · rename_i h0
    have hnil : g.c0.live = [] := List.length_eq_zero_iff.1 (by omega)
    exact ⟨_, _, rfl, hK.empty_valid _, by intro e; rw [hK.empty_edges, hnil], h.c0wf, h.c0nv, hnil⟩
  · rw [h.c0wf.converted_eq]
    obtain ⟨c', b1, b2, b3, b4, b5, b6, b7⟩ := h.c0wf.clean_ok
    simp only [Res.ok_bind, b1]
    have hr : ∀ e ∈ g.c0.live, InRange g.nv e := fun e he => h.range e (List.mem_append_left _ he)
    exact ⟨_, _, rfl, hK.build_valid _ _ h.c0wf.live_nodup hr,
      hK.build_edges _ _ h.c0wf.live_nodup hr, b2, by rw [b7, h.c0nv], b3⟩

/-- The rebuild keeps the edges. -/
theorem rebuild_spec (hK : K.Lawful) {S : Sizing} {g g' : DK K} (h : g.Inv)
    (hr : rebuild S g = .ok g') :
    g'.Inv ∧ g'.nv = g.nv ∧ (∀ e, e ∈ g'.edgesOf ↔ e ∈ g.edgesOf) ∧ g'.nTotal = g.nTotal := by
  unfold DKD.rebuild at hr
  split at hr
  · cases hr
  · rename_i i hsel
    have hi := (selectLevel_lt S _ _ _ _ _ hsel).2
    rw [Nat.zero_add] at hi
    obtain ⟨t, c, t1, t2, t3, t4, t5, t6⟩ := rebuildTmp_spec hK h
    rw [t1] at hr
    simp only [Res.ok_bind, Res.ok.injEq] at hr
    rw [mergeUpTo_snd, set_replicate_drop hi] at hr
    obtain ⟨m1, m2⟩ := mergeUpTo_fst hK (i + 1) t g.ks t2 h.val
    subst hr
    have hmem : ∀ e, e ∈ edgesOf { g with c0 := c, ks := (List.replicate i none ++
        (some (mergeUpTo K (i + 1) t g.ks).1 :: g.ks.drop (i + 1))) } ↔ e ∈ g.edgesOf := by
      intro e
      simp only [edgesOf, t6, List.nil_append, flat_append, flat_replicate, flat_some, List.mem_append]
      rw [m2, t3, or_assoc, flat_take_drop (i + 1) g.ks, List.mem_append]
    refine ⟨⟨⟨t4, t5, ?_, ?_, h.maxR_lt, ?_⟩, ?_⟩, rfl, hmem, rfl⟩
    · simp only [List.length_append, List.length_replicate, List.length_cons, List.length_drop]
      have := h.len; omega
    · intro u hu
      rcases List.mem_append.1 hu with h1 | h1
      · simp [List.mem_replicate] at h1
      · rcases List.mem_cons.1 h1 with h3 | h3
        · cases h3; exact m1
        · exact h.val u (List.mem_of_mem_drop h3)
    · intro e he; exact h.range e ((hmem e).1 he)
    · have hnd := h.nodup
      unfold edgesOf at hnd ⊢
      rw [flat_take_drop (i + 1), ← List.append_assoc, List.nodup_append] at hnd
      simp only [t6, List.nil_append, flat_append, flat_replicate, flat_some]
      rw [List.nodup_append]
      refine ⟨hK.edges_nodup _ _ m1, hnd.2.1, ?_⟩
      intro a ha b hb
      refine hnd.2.2 a ?_ b hb
      rw [m2, t3] at ha
      exact List.mem_append.2 ha

/-- What a returning `del_edge` does. -/
theorem DInv.delEdge (hK : K.Lawful) (S : Sizing) {d d' : DKD K} (h : d.DInv) {e : Edge}
    (he : InRange d.g.nv e) (hr : d.delEdge S e = .ok d') :
    d'.DInv ∧ d'.g.nv = d.g.nv ∧ (∀ e', e' ∈ d'.g.edgesOf ↔ e' ∈ d.g.edgesOf ∧ e' ≠ e) ∧
    d'.g.nTotal = (if e ∈ d.g.edgesOf then decr d.g.nTotal else d.g.nTotal) := by
  obtain ⟨c', a1, a2, a3, a4, a5, a6⟩ := h.inv.c0wf.erase_ok e
  unfold DKD.delEdge at hr
  rw [a1] at hr
  simp only [Res.ok_bind] at hr
  have hnd := h.inv.nodup
  unfold edgesOf at hnd
  rw [List.nodup_append] at hnd
  by_cases hl : e ∈ d.g.c0.live
  · simp only [hl, decide_true, if_true, Res.ok.injEq] at hr
    subst hr
    have hmem : e ∈ d.g.edgesOf := List.mem_append_left _ hl
    have hnf : e ∉ flat K d.g.ks := fun hh => hnd.2.2 e hl e hh rfl
    have hm : ∀ e', e' ∈ edgesOf { d.g with c0 := c', nTotal := decr d.g.nTotal }
        ↔ e' ∈ d.g.edgesOf ∧ e' ≠ e := by
      intro e'
      simp only [edgesOf, a3, List.mem_append, List.mem_filter, decide_eq_true_eq]
      constructor
      · rintro (⟨h1, h2⟩ | h1)
        · exact ⟨Or.inl h1, h2⟩
        · exact ⟨Or.inr h1, fun hh => hnf (hh ▸ h1)⟩
      · rintro ⟨h1 | h1, h2⟩
        · exact Or.inl ⟨h1, h2⟩
        · exact Or.inr h1
    refine ⟨⟨⟨⟨a2, by simp [a6, h.inv.c0nv], h.inv.len, h.inv.val, h.inv.maxR_lt, ?_⟩, ?_⟩,
      h.tmp, h.fin, h.prev⟩, rfl, hm, by simp [hmem]⟩
    · intro e' he'; exact h.inv.range e' ((hm e').1 he').1
    · simp only [edgesOf, a3]
      rw [List.nodup_append]
      exact ⟨hnd.1.filter _, hnd.2.1, fun a ha b hb => hnd.2.2 a (List.mem_filter.1 ha).1 b hb⟩
  · simp only [hl, decide_false, Bool.false_eq_true, if_false] at hr
    have hfil : d.g.c0.live.filter (fun e' => decide (e' ≠ e)) = d.g.c0.live := by
      rw [List.filter_eq_self]
      intro a ha
      have : a ≠ e := fun hh => hl (hh ▸ ha)
      simpa using this
    rw [hfil] at a3
    obtain ⟨s1, s2, s3, s4, s5⟩ := eraseFirst_spec hK he h.inv.val hnd.2.1
    generalize hg : (afterErase { d.g with c0 := c' } e).2 = g1 at hr
    have g1c : g1.c0 = c' := by rw [← hg]; rfl
    have g1k : g1.ks = (eraseFirst K e d.g.ks).2.2 := by rw [← hg]; rfl
    have g1m : g1.maxR = d.g.maxR := by rw [← hg]; rfl
    have g1t : g1.nTotal = if (eraseFirst K e d.g.ks).1 then decr d.g.nTotal else d.g.nTotal := by
      rw [← hg]; rfl
    have hnv1 : g1.nv = d.g.nv := by rw [← hg]; rfl
    have hmem1 : ∀ e', e' ∈ g1.edgesOf ↔ e' ∈ d.g.edgesOf ∧ e' ≠ e := by
      intro e'
      simp only [edgesOf, g1c, g1k, a3, List.mem_append, s4]
      constructor
      · rintro (h1 | ⟨h1, h2⟩)
        · exact ⟨Or.inl h1, fun hh => hl (hh ▸ h1)⟩
        · exact ⟨Or.inr h1, h2⟩
      · rintro ⟨h1 | h1, h2⟩
        · exact Or.inl h1
        · exact Or.inr ⟨h1, h2⟩
    have hcnt : g1.nTotal = (if e ∈ d.g.edgesOf then decr d.g.nTotal else d.g.nTotal) := by
      have : (e ∈ d.g.edgesOf) ↔ (eraseFirst K e d.g.ks).1 = true := by
        rw [s3]; unfold edgesOf; rw [List.mem_append]; simp [hl]
      rw [g1t]
      simp only [this]
    have hi1 : g1.Inv := by
      refine ⟨⟨by rw [g1c]; exact a2, by rw [g1c, hnv1, a6, h.inv.c0nv], by rw [g1k, s2, h.inv.len],
        by rw [g1k, hnv1]; exact s1, by rw [g1m]; exact h.inv.maxR_lt, ?_⟩, ?_⟩
      · intro e' he'; rw [hnv1]; exact h.inv.range e' ((hmem1 e').1 he').1
      · simp only [edgesOf, g1c, g1k, a3]
        rw [List.nodup_append]
        exact ⟨hnd.1, s5, fun a ha b hb => hnd.2.2 a ha b ((s4 b).1 hb).1⟩
    split at hr
    · rw [Res.bind_eq_ok] at hr
      obtain ⟨g2, h2, hr⟩ := hr
      cases hr
      obtain ⟨r1, r2, r3, r4⟩ := rebuild_spec hK hi1 h2
      refine ⟨⟨r1, h.tmp, h.fin, h.prev⟩, by rw [r2, hnv1], ?_, by rw [r4, hcnt]⟩
      intro e'; rw [r3, hmem1]
    · cases hr
      exact ⟨⟨hi1, h.tmp, h.fin, h.prev⟩, hnv1, hmem1, hcnt⟩

/-! ## Histories -/

/-- The graph represents `G`. -/
structure DTrack (d : DKD K) (G : Edge → Prop) : Prop where
  inv : d.DInv
  mem : ∀ e, e ∈ d.g.edgesOf ↔ G e
  cnt : d.g.nTotal = d.g.edgesOf.length

theorem DTrack.step (hK : K.Lawful) (S : Sizing) {d d' : DKD K} {G : Edge → Prop} (h : DTrack d G)
    {o : Op} (ho : InRange d.g.nv o.edge) (hr : d.step false S o = .ok d') :
    DTrack d' (specStep G o) ∧ d'.g.nv = d.g.nv := by
  cases o with
  | add e =>
    have ho' : InRange d.g.nv e := ho
    obtain ⟨a1, a2, a3, a4⟩ := h.inv.addEdge hK S ho' hr
    refine ⟨⟨a1, ?_, ?_⟩, a2⟩
    · intro e'; rw [a3, h.mem]; exact Iff.rfl
    · rw [a4]
      by_cases hm : e ∈ d.g.edgesOf
      · rw [if_pos hm, h.cnt]
        refine length_eq_of_mem_iff h.inv.inv.nodup a1.inv.nodup ?_
        intro e'; rw [a3]
        constructor
        · exact Or.inr
        · rintro (rfl | h')
          · exact hm
          · exact h'
      · rw [if_neg hm, h.cnt]
        exact (length_insert h.inv.inv.nodup a1.inv.nodup a3 hm).symm
  | del e =>
    have ho' : InRange d.g.nv e := ho
    obtain ⟨a1, a2, a3, a4⟩ := h.inv.delEdge hK S ho' hr
    refine ⟨⟨a1, ?_, ?_⟩, a2⟩
    · intro e'
      rw [a3, h.mem]
      show _ ↔ e' ≠ e ∧ G e'
      exact and_comm
    · rw [a4]
      by_cases hm : e ∈ d.g.edgesOf
      · rw [if_pos hm]
        have hlen := length_remove h.inv.inv.nodup a1.inv.nodup a3 hm
        have := h.cnt
        unfold decr
        rw [if_neg (by omega)]; omega
      · rw [if_neg hm, h.cnt]
        refine length_eq_of_mem_iff h.inv.inv.nodup a1.inv.nodup ?_
        intro e'
        rw [a3]
        exact ⟨fun h' => ⟨h', fun hh => hm (hh ▸ h')⟩, fun h' => h'.1⟩

theorem runFrom_append (nd : Bool) (S : Sizing) (d : DKD K) (a b : List Op) :
    runFrom nd S d (a ++ b) = (runFrom nd S d a >>= fun d' => runFrom nd S d' b) := by
  induction a generalizing d with
  | nil => rfl
  | cons o a ih =>
    simp only [List.cons_append, runFrom]
    cases d.step nd S o with
    | ok d' => simp [ih]
    | _ => rfl

theorem run_append (nd : Bool) (S : Sizing) (n : Nat) (a b : List Op) :
    run nd K S n (a ++ b) = (run nd K S n a >>= fun d' => runFrom nd S d' b) := by
  unfold run
  cases create K S n with
  | ok d => simp [runFrom_append]
  | _ => rfl

theorem run_snoc_ok {nd : Bool} {S : Sizing} {n : Nat} {a : List Op} {o : Op} {d : DKD K}
    (h : run nd K S n (a ++ [o]) = .ok d) :
    ∃ d0, run nd K S n a = .ok d0 ∧ d0.step nd S o = .ok d := by
  rw [run_append, Res.bind_eq_ok] at h
  obtain ⟨d0, h1, h2⟩ := h
  refine ⟨d0, h1, ?_⟩
  simp only [runFrom] at h2
  rw [Res.bind_eq_ok] at h2
  obtain ⟨d1, h3, h4⟩ := h2
  cases h4; exact h3

theorem run_nil {nd : Bool} {S : Sizing} {n : Nat} {d : DKD K} (h : run nd K S n [] = .ok d) :
    d = init K S n ∧ n ≠ 1 := by
  unfold run create at h
  split at h
  · cases h
  · rename_i hn
    simp only [Res.ok_bind, runFrom, Res.ok.injEq] at h
    exact ⟨h.symm, hn⟩

/-- Every history that returns (assertions on) represents the specified edge set. -/
theorem run_track (hK : K.Lawful) (S : Sizing) {n : Nat} :
    ∀ {ops : List Op} {d : DKD K}, OpsInRange n ops → run false K S n ops = .ok d →
      DTrack d (specRun (fun _ => False) ops) ∧ d.g.nv = n := by
  intro ops
  induction ops using List.reverseRecOn with
  | nil =>
    intro d _ h
    obtain ⟨rfl, _⟩ := run_nil h
    refine ⟨⟨init_dinv S n, ?_, ?_⟩, rfl⟩
    · intro e
      have : (init K S n).g.edgesOf = [] := init_edges S n
      rw [this]; simp [specRun]
    · have : (init K S n).g.edgesOf = [] := init_edges S n
      rw [this]; rfl
  | append_singleton ops o ih =>
    intro d hops h
    obtain ⟨d0, h1, h2⟩ := run_snoc_ok h
    obtain ⟨t, hnv⟩ := ih (OpsInRange.of_append hops) h1
    obtain ⟨t', hnv'⟩ := t.step hK S (by rw [hnv]; exact OpsInRange.last hops) h2
    refine ⟨⟨t'.inv, ?_, t'.cnt⟩, by rw [hnv', hnv]⟩
    intro e
    rw [t'.mem, specRun_concat]

/-! ## Insert-only histories -/

/-- Union steps left. -/
def rem (d : DKD K) : Nat := d.ufinal + 1 - d.ui

/-- Invariant of insert-only histories. -/
structure DIns (d : DKD K) : Prop where
  inv : d.DInv
  le : d.g.edgesOf.length ≤ d.g.nTotal
  above : d.g.NoneAbove
  fin : d.ui ≤ d.ufinal → d.ufinal ≤ d.g.maxR ∨ ∀ t, some t ∉ d.g.ks
  src : d.ui ≤ d.ufinal → d.Source
  fresh : d.g.Fresh
  bud : d.rem = 0 ∨ d.rem + d.g.c0.live.length ≤ 7

theorem init_ins (S : Sizing) (n : Nat) : DIns (init K S n) where
  inv := init_dinv S n
  le := by
    have : (init K S n).g.edgesOf = [] := init_edges S n
    rw [this]; simp
  above := DK.init_noneAbove S n
  fin := by intro _; right; intro t ht; simp [init, DK.init, List.mem_replicate] at ht
  src := by
    intro _; right
    exact ⟨Nat.le_refl _, Or.inr (by intro t ht; simp [init, DK.init, List.mem_replicate] at ht)⟩
  fresh := ⟨rfl, by intro t ht; simp [init, DK.init, List.mem_replicate] at ht⟩
  bud := by
    right
    have : (init K S n).g.c0.live = [] := by simp [init, DK.init]
    rw [this]; simp [rem, init]

/-- The step at the start of `add_edge` on insert-only graphs. -/
theorem DIns.pre (hK : K.Lawful) {d : DKD K} (h : DIns d) :
    ∃ d', d.pre = .ok d' ∧ DIns d' ∧ d'.g.nv = d.g.nv ∧ d'.g.c0 = d.g.c0 ∧
      d'.g.nTotal = d.g.nTotal ∧ (d'.rem = 0 ∨ d'.rem + d.g.c0.live.length ≤ 6) ∧
      (∀ e, e ∈ d'.g.edgesOf ↔ e ∈ d.g.edgesOf) ∧ (d'.rem = 0 ∨ d'.rem + 1 ≤ d.rem) := by
  by_cases hw : d.ufinal < d.ui
  · refine ⟨d, by simp [DKD.pre, workDone, hw], h, rfl, rfl, rfl, Or.inl (by unfold rem; omega),
      fun _ => Iff.rfl, Or.inl (by unfold rem; omega)⟩
  · have hu : d.ui ≤ d.ufinal := by omega
    obtain ⟨d', h1⟩ := unionDelay_ok h.inv.inv.len (h.inv.fin hu) hu (h.src hu)
    obtain ⟨u, u1, u2, u3, u4, u5, u6⟩ := h.inv.unionDelay hK hu h1
    have hrem : d'.rem + 1 ≤ d.rem ∨ d'.rem = 0 := by
      have := u.ui; have := u.fin; unfold rem; omega
    have hbud : d'.rem = 0 ∨ d'.rem + d.g.c0.live.length ≤ 6 := by
      rcases hrem with h2 | h2
      · rcases h.bud with h3 | h3
        · omega
        · right; omega
      · exact Or.inl h2
    -- an empty collection stays empty
    have hempty : (∀ t, some t ∉ d.g.ks) → (∀ t, some t ∉ d'.g.ks) ∧ d'.ufinal < d'.ui := by
      intro hn
      have hall : ∀ (f : Nat) (x x' : DKD K), x.g.ks = d.g.ks → x.tmp = none → RS ≤ x.uprev →
          x.ui + f = x.ufinal + 1 → unionLoop f x = .ok x' → (∀ t, some t ∉ x'.g.ks) ∧ x'.ufinal < x'.ui := by
        intro f
        induction f with
        | zero =>
          intro x x' e1 e2 e3 e4 e5
          simp only [unionLoop, unionMove] at e5
          rw [if_neg (by omega), Res.bind_eq_ok] at e5
          obtain ⟨ks, e6, e7⟩ := e5
          rw [wr_eq_ok] at e6
          obtain ⟨e6, rfl⟩ := e6
          cases e7
          refine ⟨?_, by simp; omega⟩
          intro t ht
          rcases List.mem_or_eq_of_mem_set ht with h2 | h2
          · rw [e1] at h2; exact hn t h2
          · rw [e2] at h2; cases h2
        | succ f ih =>
          intro x x' e1 e2 e3 e4 e5
          simp only [unionLoop] at e5
          rw [Res.bind_eq_ok] at e5
          obtain ⟨o, e6, e7⟩ := e5
          rw [rd_eq_ok, e1] at e6
          cases o with
          | none =>
            simp only at e7
            exact ih { x with ui := x.ui + 1 } x' e1 e2 e3 (by simp; omega) e7
          | some t => exact absurd (List.mem_of_getElem? e6) (hn t)
      have hp : RS ≤ d.uprev := by
        rcases h.src hu with ⟨_, t, ht⟩ | ⟨h2, _⟩
        · exact absurd (List.mem_of_getElem? ht) (hn t)
        · exact h2
      exact hall _ d d' rfl h.inv.tmp hp (by omega) h1
    have hnd' : d'.g.NoneAbove := by
      intro i t hi
      rcases h.fin hu with h2 | h2
      · rcases u.above i t hi with h3 | h3
        · rw [u6]; omega
        · rw [u6]; exact h.above i t h3
      · exact absurd (List.mem_of_getElem? hi) ((hempty h2).1 t)
    refine ⟨d', by simp [DKD.pre, workDone, hw, h1], ⟨u1, ?_, hnd', ?_, ?_, ⟨?_, ?_⟩, ?_⟩, u3, u4, u5, hbud,
      u2, hrem.symm⟩
    · rw [u5, ← length_eq_of_mem_iff h.inv.inv.nodup u1.inv.nodup (fun e => (u2 e).symm)]
      exact h.le
    · intro hu'
      rcases h.fin hu with h2 | h2
      · left; rw [u.fin, u6]; exact h2
      · have := (hempty h2).2; omega
    · intro hu'
      rcases u.occ h.inv.inv.len with h2 | h2
      · omega
      · exact Or.inl h2
    · rw [u4]; exact h.fresh.c0m
    · intro t ht
      exact u.marked (by
        intro t ht
        rcases List.mem_append.1 ht with h2 | h2
        · exact h.fresh.trees t h2
        · rw [h.inv.tmp] at h2; simp at h2) t (List.mem_append_left _ ht)
    · rw [u4]; omega

/-- `add_edge` on an insert-only graph: it returns, having stored the edge; or it reaches `assert(false)`,
which happens only with a buffer capacity below 6 and, when compiled out, drops the edge. -/
theorem DIns.addEdge (hK : K.Lawful) {S : Sizing} (hT : S.Top) {d : DKD K}
    (h : DIns d) {e : Edge} (he : InRange d.g.nv e) (h2 : 2 ≤ d.g.nv) :
    (d.addEdge false S e = .abort ∧ S.maxsz (max d.g.nv d.g.nTotal) 0 < 6 ∧ e ∉ d.g.edgesOf ∧
      ∃ d', d.addEdge true S e = .ok d' ∧ DIns d' ∧ d'.g.nv = d.g.nv ∧
        d'.g.nTotal = d.g.nTotal + 1 ∧ (∀ e', e' ∈ d'.g.edgesOf ↔ e' ∈ d.g.edgesOf)) ∨
    ∃ d', d.addEdge false S e = .ok d' ∧ d.addEdge true S e = .ok d' ∧ DIns d' ∧ d'.g.nv = d.g.nv ∧
      (∀ e', e' ∈ d'.g.edgesOf ↔ e' = e ∨ e' ∈ d.g.edgesOf) ∧
      d'.g.nTotal = (if e ∈ d.g.edgesOf then d.g.nTotal else d.g.nTotal + 1) := by
  obtain ⟨d1, p0, p1, p2, p3, p4, p5, p6, p7⟩ := h.pre hK
  have he1 : InRange d1.g.nv e := by rw [p2]; exact he
  have hcont := p1.inv.inv.contains_eq hK he1
  have hrun : ∀ nd, d.addEdge nd S e = (if e ∈ d1.g.edgesOf then .ok d1
      else if d1.g.c0.size < S.maxsz (max d1.g.nv d1.g.nTotal) 0 then do
        let c ← d1.g.c0.insert S e d1.g.nTotal
        .ok { d1 with g := { d1.g with c0 := c, nTotal := d1.g.nTotal + 1 } }
      else if d1.workDone then d1.flush S e
      else if nd then .ok { d1 with g := { d1.g with nTotal := d1.g.nTotal + 1 } } else .abort) := by
    intro nd
    unfold DKD.addEdge
    rw [p0]
    simp only [Res.ok_bind]
    unfold DKD.contains
    rw [hcont]
    by_cases hm : e ∈ d1.g.edgesOf <;> simp [hm]
  have hsz := p1.inv.inv.c0wf.size_eq
  have hmk := p1.inv.inv.c0wf.marked_eq
  have hll := p1.inv.inv.c0wf.live_length
  have hc0m := p1.fresh.c0m
  have hfin : ∀ d', (∀ nd, d.addEdge nd S e = .ok d') → d'.g.NoneAbove →
      (d'.ui ≤ d'.ufinal → d'.ufinal ≤ d'.g.maxR ∨ ∀ t, some t ∉ d'.g.ks) →
      (d'.ui ≤ d'.ufinal → d'.Source) → d'.g.Fresh → (d'.rem = 0 ∨ d'.rem + d'.g.c0.live.length ≤ 7) →
      ∃ d', d.addEdge false S e = .ok d' ∧ d.addEdge true S e = .ok d' ∧ DIns d' ∧ d'.g.nv = d.g.nv ∧
        (∀ e', e' ∈ d'.g.edgesOf ↔ e' = e ∨ e' ∈ d.g.edgesOf) ∧
        d'.g.nTotal = (if e ∈ d.g.edgesOf then d.g.nTotal else d.g.nTotal + 1) := by
    intro d' hr a1 a2 a3 a4 a5
    obtain ⟨t1, t2, t3, t4⟩ := h.inv.addEdge hK S he (hr false)
    refine ⟨d', hr false, hr true, ⟨t1, ?_, a1, a2, a3, a4, a5⟩, t2, t3, t4⟩
    have := h.le
    by_cases hm : e ∈ d.g.edgesOf
    · rw [t4, if_pos hm, ← length_eq_of_mem_iff h.inv.inv.nodup t1.inv.nodup]
      · exact h.le
      · intro e'; rw [t3]
        exact ⟨Or.inr, fun h' => h'.elim (fun h'' => h'' ▸ hm) id⟩
    · rw [t4, if_neg hm, length_insert h.inv.inv.nodup t1.inv.nodup t3 hm]; omega
  by_cases hm : e ∈ d1.g.edgesOf
  · right
    simp only [if_pos hm] at hrun
    exact hfin d1 hrun p1.above p1.fin p1.src p1.fresh p1.bud
  · simp only [if_neg hm] at hrun
    have hl : e ∉ d1.g.c0.live := fun hh => hm (List.mem_append_left _ hh)
    by_cases hlt : d1.g.c0.size < S.maxsz (max d1.g.nv d1.g.nTotal) 0
    · simp only [if_pos hlt] at hrun
      right
      have hroom : d1.g.c0.room S d1.g.nTotal := by
        unfold C0.room
        rw [p1.inv.inv.c0nv]
        have : d1.g.c0.nElements = d1.g.c0.size := by omega
        omega
      obtain ⟨c', a1, a2, a3, a4, a5, a6⟩ := C0.insert_absent p1.inv.inv.c0wf hl hroom
      simp only [a1, Res.ok_bind] at hrun
      refine hfin _ hrun p1.above p1.fin p1.src ⟨by simp only [a5]; exact p1.fresh.c0m, p1.fresh.trees⟩ ?_
      simp only [a3, List.length_append, List.length_singleton]
      rcases p5 with h3 | h3
      · left; exact h3
      · right
        rw [p3]
        have : DKD.rem { d1 with g := { d1.g with c0 := c', nTotal := d1.g.nTotal + 1 } } = d1.rem := rfl
        rw [this]; omega
    · have hge := hlt
      simp only [if_neg hlt] at hrun
      by_cases hw : d1.workDone = true
      · right
        simp only [if_pos hw] at hrun
        have hsum := sum_total hK p1.inv.inv.val p1.fresh.trees
        have hlen : d1.g.edgesOf.length = d1.g.c0.live.length + (flat K d1.g.ks).length := by
          unfold edgesOf; simp
        have hcnt := p1.le
        obtain ⟨r, hr⟩ := selectLevel_some S (max d1.g.nv d1.g.nTotal) d1.g.ks 0
          (S.maxsz (max d1.g.nv d1.g.nTotal) 0) d1.g.nTotal (by
            intro l hl
            have : l + 1 = RS := by rw [hl, p1.inv.inv.len]; simp
            rw [this, hT]; omega)
          (by intro hh; have := p1.inv.inv.len; rw [hh] at this; simp [RS] at this)
          (by rw [hsum]; omega)
        have hlt := (selectLevel_lt S _ _ _ _ _ hr).2
        rw [Nat.zero_add, p1.inv.inv.len] at hlt
        obtain ⟨c', b1, b2, b3, b4, b5, b6, b7⟩ := p1.inv.inv.c0wf.clean_ok
        obtain ⟨v1, v2, v3⟩ := build_live hK p1.inv.inv he1 hm
        have hl0 : d1.g.ks.length = RS := p1.inv.inv.len
        obtain ⟨d2, hd2⟩ := unionDelay_ok (d := ⟨{ d1.g with maxR := max r d1.g.maxR, c0 := c' }, 0, RS, r,
          some (K.build (d1.g.c0.live ++ [e]) d1.g.nv)⟩) hl0 hlt (by simp)
          (Or.inr ⟨Nat.le_refl _, Or.inl ⟨_, rfl⟩⟩)
        have hv : AllValid K d1.g.nv (d1.g.ks ++ [some (K.build (d1.g.c0.live ++ [e]) d1.g.nv)]) :=
          allValid_slots.2 ⟨p1.inv.inv.val, by intro t ht; cases ht; exact v1⟩
        have u := unionDelay_spec hK (d := ⟨{ d1.g with maxR := max r d1.g.maxR, c0 := c' }, 0, RS, r,
          some (K.build (d1.g.c0.live ++ [e]) d1.g.nv)⟩) hl0 hv hlt (by simp) (by simp) hd2
        obtain ⟨ks, hg⟩ := u.g
        have hflush : d1.flush S e = .ok { d2 with g := { d2.g with nTotal := d2.g.nTotal + 1 } } := by
          unfold DKD.flush
          rw [hr]
          simp only [p1.inv.inv.c0wf.converted_eq, b1, Res.ok_bind, hd2]
        simp only [hflush] at hrun
        have hmaxR : d2.g.maxR = max r d1.g.maxR := by rw [hg]
        have hufin : d2.ufinal = r := u.fin
        refine hfin _ hrun ?_ ?_ ?_ ⟨?_, ?_⟩ ?_
        · intro i t hi
          show i ≤ d2.g.maxR
          rw [hmaxR]
          rcases u.above i t hi with h3 | h3
          · simp only at h3; omega
          · have := p1.above i t h3; omega
        · intro _; left
          show d2.ufinal ≤ d2.g.maxR
          rw [hmaxR, hufin]; omega
        · intro hu'
          rcases u.occ hl0 with h3 | h3
          · have hu'' : d2.ui ≤ d2.ufinal := hu'
            omega
          · exact Or.inl h3
        · show d2.g.c0.marked = 0
          rw [hg]; exact b5
        · intro t ht
          exact u.marked (by
            intro t ht
            rcases List.mem_append.1 ht with h4 | h4
            · exact p1.fresh.trees t h4
            · simp at h4; rw [h4]; exact v3) t (List.mem_append_left _ ht)
        · right
          have hc : d2.g.c0 = c' := by rw [hg]
          show d2.rem + d2.g.c0.live.length ≤ 7
          rw [hc, b3]
          have := u.ui
          simp only at this
          unfold rem
          rw [hufin]
          simp only [RS] at hlt
          simp; omega
      · left
        simp only [if_neg hw] at hrun
        have h3 := hrun true
        simp only [if_true] at h3
        refine ⟨by simpa using hrun false, ?_, fun hh => hm ((p6 e).2 hh), _, h3, ⟨⟨⟨⟨p1.inv.inv.c0wf,
          p1.inv.inv.c0nv, p1.inv.inv.len, p1.inv.inv.val, p1.inv.inv.maxR_lt, p1.inv.inv.range⟩,
          p1.inv.inv.nodup⟩, p1.inv.tmp, p1.inv.fin, p1.inv.prev⟩, ?_, p1.above, p1.fin, p1.src,
          ⟨p1.fresh.c0m, p1.fresh.trees⟩, p1.bud⟩, p2, by simp [p4], p6⟩
        · have : d1.rem ≠ 0 := by
            simp only [workDone, decide_eq_true_eq] at hw
            unfold rem; omega
          rw [← p2, ← p4]
          rw [p3] at hsz hge
          rcases p5 with h3 | h3
          · exact absurd h3 this
          · rw [hsz] at hge; omega
        · have := p1.le
          show d1.g.edgesOf.length ≤ d1.g.nTotal + 1
          omega

/-- The outcome of an insert-only history. -/
theorem run_inserts (hK : K.Lawful) {S : Sizing} (hT : S.Top) {n : Nat} (h2 : 2 ≤ n) :
    ∀ {es : List Edge}, (∀ e ∈ es, InRange n e) →
      ∃ d : DKD K, run true K S n (inserts es) = .ok d ∧ d.g.nv = n ∧ DIns d ∧
        (∀ e, e ∈ d.g.edgesOf → e ∈ es) ∧
        ((run false K S n (inserts es) = .abort ∧ ∃ m, n ≤ m ∧ S.maxsz m 0 < 6) ∨
          (run false K S n (inserts es) = .ok d ∧ (∀ e, e ∈ d.g.edgesOf ↔ e ∈ es) ∧
            d.g.nTotal = d.g.edgesOf.length)) := by
  intro es
  induction es using List.reverseRecOn with
  | nil =>
    intro _
    have hn : n ≠ 1 := by omega
    have he : (init K S n).g.edgesOf = [] := init_edges S n
    have hr : ∀ nd, run nd K S n (inserts []) = .ok (init K S n) := by
      intro nd; simp [run, create, inserts, runFrom, hn]
    exact ⟨init K S n, hr true, rfl, init_ins S n, by rw [he]; simp,
      Or.inr ⟨hr false, by rw [he]; simp, by rw [he]; rfl⟩⟩
  | append_singleton es e ih =>
    intro hr
    have hins : inserts (es ++ [e]) = inserts es ++ [Op.add e] := by simp [inserts]
    obtain ⟨d, h1, hnv, hx, hs, hor⟩ := ih (fun e he => hr e (by simp [he]))
    have he : InRange d.g.nv e := by rw [hnv]; exact hr e (by simp)
    have hstep : ∀ nd, run nd K S n (inserts es) = .ok d →
        run nd K S n (inserts (es ++ [e])) = d.addEdge nd S e := by
      intro nd h1
      rw [hins, run_append, h1]
      show (d.addEdge nd S e >>= fun d' => runFrom nd S d' []) = _
      cases d.addEdge nd S e <;> rfl
    rcases hx.addEdge hK hT he (by omega) with ⟨h3, h4, h5, d', h6, h7, h8, h9, h10⟩ | ⟨d', h3, h4, h5, h6, h7, h8⟩
    · refine ⟨d', by rw [hstep true h1, h6], by rw [h8, hnv], h7, ?_, Or.inl ?_⟩
      · intro e' he'
        have := hs e' ((h10 e').1 he')
        simp [this]
      · rcases hor with ⟨ha, hm⟩ | ⟨ha, _⟩
        · exact ⟨by rw [hins, run_append, ha]; rfl, hm⟩
        · exact ⟨by rw [hstep false ha, h3], max d.g.nv d.g.nTotal, by omega, h4⟩
    · refine ⟨d', by rw [hstep true h1, h4], by rw [h6, hnv], h5, ?_, ?_⟩
      · intro e' he'
        rcases (h7 e').1 he' with h9 | h9
        · simp [h9]
        · have := hs e' h9; simp [this]
      · rcases hor with ⟨ha, hm⟩ | ⟨ha, hb, hc⟩
        · left; exact ⟨by rw [hins, run_append, ha]; rfl, hm⟩
        · right
          refine ⟨by rw [hstep false ha, h3], ?_, ?_⟩
          · intro e'; rw [h7, hb]; simp [or_comm]
          · rw [h8]
            by_cases hm : e ∈ d.g.edgesOf
            · rw [if_pos hm, hc]
              refine length_eq_of_mem_iff hx.inv.inv.nodup h5.inv.inv.nodup ?_
              intro e'; rw [h7]
              exact ⟨Or.inr, fun h' => h'.elim (fun h'' => h'' ▸ hm) id⟩
            · rw [if_neg hm, hc]
              exact (length_insert hx.inv.inv.nodup h5.inv.inv.nodup h7 hm).symm

end DKD
end DK2
