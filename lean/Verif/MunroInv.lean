import Verif.MunroProofs
import Verif.UnionOver
/-!
# `DKtree_delay_munro`: the invariant and the effect of each call
-/

namespace DK2
open Bits

namespace DKM

/-- What is assumed of the parameters for a graph of `n` vertices and a history of at most `N` insertions: the
height is enough for `n`, and the size estimate `k² + k⁴ + … (mod 2³²)` of the union does not cut off a result, whose
`T` has at most `min (k² (H-1) N) (k² + … + k^(2(H-1)))` bits and whose `L` has at most `min (k² N) (k^(2H))` bits. -/
structure Ctx (P : MPar) (n N : Nat) : Prop where
  hk : 2 ≤ P.k
  hh : 1 ≤ P.H n
  hn : n ≤ P.k ^ P.H n
  fitT : min (P.k * P.k * ((P.H n - 1) * N)) (US.geo (P.k * P.k) (P.H n - 1)) ≤ US.geo (P.k * P.k) (P.H n) % 2 ^ 32
  fitL : min (P.k * P.k * N) ((P.k * P.k) ^ P.H n) ≤ US.geo (P.k * P.k) (P.H n + 1) % 2 ^ 32
  two : 2 ≤ n

theorem Ctx.zero {P : MPar} {n N : Nat} (hc : Ctx P n N) : Ctx P n 0 :=
  ⟨hc.hk, hc.hh, hc.hn, by simp, by simp, hc.two⟩

theorem Ctx.mono {P : MPar} {n M N : Nat} (h : M ≤ N) (hc : Ctx P n N) : Ctx P n M :=
  ⟨hc.hk, hc.hh, hc.hn, le_trans (min_le_min_right _ (Nat.mul_le_mul_left _ (Nat.mul_le_mul_left _ h))) hc.fitT,
    le_trans (min_le_min_right _ (Nat.mul_le_mul_left _ h)) hc.fitL, hc.two⟩

/-- What is assumed where it does not matter whether a history of `N` insertions runs into the limit of the size estimate: the
facts on the parameters alone (`Ctx P n 0`), and either `k²` divides `2³²` (`k` is a power of two), so that a merge that
exceeds the estimate writes out of bounds, or `N` insertions do not exceed it. -/
structure Cond (P : MPar) (n N : Nat) : Prop where
  base : Ctx P n 0
  est : P.k * P.k ∣ 2 ^ 32 ∨ Ctx P n N

theorem Ctx.cond {P : MPar} {n N : Nat} (hc : Ctx P n N) : Cond P n N := ⟨hc.zero, Or.inr hc⟩

theorem Cond.mono {P : MPar} {n M N : Nat} (h : M ≤ N) (hc : Cond P n N) : Cond P n M :=
  ⟨hc.base, hc.est.imp id (fun h' => h'.mono h)⟩

theorem Ctx.input {P : MPar} {n N : Nat} (hc : Ctx P n N) {F : List Edge} {es : List (Option (List Edge))}
    (hl : Lv n es) (hF : F ≠ []) (hr : ∀ e ∈ F, InRange n e) {m : Nat} (hm : m < RS)
    (hN : F.length + wt es ≤ N) : US.Input P.k (P.H n) n F es m := by
  have hne : US.acc F es (m + 1) ≠ [] := by rw [US.acc_eq]; simp [hF]
  have hlen : (US.acc F es (m + 1)).dedup.length ≤ N := by
    have h1 := acc_dedup F es (m + 1)
    have h2 := wt_split es (m + 1)
    omega
  refine ⟨⟨hc.hk, hc.hh, hc.hn, hF, hr, hl.ne, by rw [hl.len]; exact hm⟩, le_trans (le_min ?_ ?_) hc.fitT,
    le_trans (le_min ?_ ?_) hc.fitL⟩
  · rw [US.tBits_length]
    exact Nat.mul_le_mul_left _ (le_trans (cnt_le_edges hne _) (Nat.mul_le_mul_left _ hlen))
  · rw [US.tBits_length]; exact US.cnt_geo _ _ _
  · rw [US.lBits_length]
    exact Nat.mul_le_mul_left _ (le_trans (nodes_le_edges hne _) hlen)
  · rw [US.lBits_length]
    have h1 := Nat.mul_le_mul_left (P.k * P.k) (US.nodes_len (P.k * P.k) (below P.k (P.H n) (US.acc F es (m + 1))) (P.H n - 1))
    rw [Nat.mul_comm (P.k * P.k) ((P.k * P.k) ^ (P.H n - 1)), ← pow_succ, Nat.sub_add_cancel hc.hh] at h1
    exact h1

/-- The result of merging `F` into level `m` is not larger than the size estimate. -/
def Fit (P : MPar) (n : Nat) (F : List Edge) (es : List (Option (List Edge))) (m : Nat) : Prop :=
  (tBits (P.k * P.k) (below P.k (P.H n) (US.acc F es (m + 1))) (P.H n)).length ≤ US.geo (P.k * P.k) (P.H n) % 2 ^ 32 ∧
  (lBits (P.k * P.k) (below P.k (P.H n) (US.acc F es (m + 1))) (P.H n)).length ≤ US.geo (P.k * P.k) (P.H n + 1) % 2 ^ 32

theorem Ctx.fits {P : MPar} {n N : Nat} (hc : Ctx P n N) {F : List Edge} {es : List (Option (List Edge))}
    (hl : Lv n es) (hF : F ≠ []) (hr : ∀ e ∈ F, InRange n e) {m : Nat} (hm : m < RS)
    (hN : F.length + wt es ≤ N) : Fit P n F es m :=
  ⟨(hc.input hl hF hr hm hN).fitT, (hc.input hl hF hr hm hN).fitL⟩

/-- One call of `unionOperation`: if the result of the union is not larger than the estimate it returns; if it is, and `k` is
a power of two, the call is undefined or the union goes on. -/
theorem unionOp_any {P : MPar} {n : Nat} {F : List Edge} {es : List (Option (List Edge))} {m : Nat}
    (hb : US.Base P.k (P.H n) n F es m) (hu : P.k * P.k ∣ 2 ^ 32 ∨ Fit P n F es m) (f : Nat) {ks : List (Option BT)}
    {s : US} {D : Nat} (hp : US.Pend P.k (P.H n) n F es m ks s D) (ht : s.times < s.iter) (hm : m < s.ki + f) :
    (US.unionOp (P.k * P.k) P.H f ks s = .ub ∧ ¬ Fit P n F es m) ∨
    ∃ ks' s', US.unionOp (P.k * P.k) P.H f ks s = .ok (ks', s') ∧ s'.iter = s.iter ∧
      ((s'.finish = true ∧ ks' = US.stored P.k (P.H n) n (US.merged F es m) ∧
          US.work P.k (P.H n) F es (m + 1) ≤ D + (s.iter - s.times) ∧ Fit P n F es m) ∨
       (US.Pend P.k (P.H n) n F es m ks' s' (D + (s.iter - s.times)) ∧ s'.times = 0 ∧
          D + (s.iter - s.times) < US.work P.k (P.H n) F es (m + 1))) := by
  by_cases hfit : Fit P n F es m
  · right
    obtain ⟨ks', s', e1, e2, e3⟩ := hp.unionOp (H := P.H) ⟨hb, hfit.1, hfit.2⟩ rfl f ht hm
    refine ⟨ks', s', e1, e2, ?_⟩
    rcases e3 with ⟨a1, a2, a3⟩ | a
    · exact Or.inl ⟨a1, a2, a3, hfit⟩
    · exact Or.inr a
  · have hk2 := hu.resolve_right hfit
    rcases US.Pend.unionOp_over (H := P.H) hb rfl hk2 hfit f hp ht hm with h | ⟨ks', s', e1, e2, e3⟩
    · exact Or.inl ⟨h, hfit⟩
    · exact Or.inr ⟨ks', s', e1, e2, Or.inr e3⟩

/-- A union in progress: the batch being merged, its target level, the work done. -/
structure Pd where
  F : List Edge
  m : Nat
  D : Nat

/-- The state of the levels and of `union_support`. -/
def Stage (P : MPar) (n : Nat) (d : DKM) (es : List (Option (List Edge))) : Option Pd → Prop
  | none => d.us.finish = true ∧ d.ks = US.stored P.k (P.H n) n es
  | some p => US.Base P.k (P.H n) n p.F es p.m ∧ US.Pend P.k (P.H n) n p.F es p.m d.ks d.us p.D ∧ d.us.times = 0 ∧
      p.D < US.work P.k (P.H n) p.F es (p.m + 1) ∧
      d.us.iter = US.iterSize (US.totalIter (US.stored P.k (P.H n) n es) p.m (BT.encode P.k (P.H n) n p.F)) p.F.length ∧
      d.copy = US.stored P.k (P.H n) n es ∧ d.tmpEdge ∈ p.F ∧
      d.us.iter * (1 + d.c0.live.length) ≤ p.D

/-- The edges of a pending batch. -/
def batch : Option Pd → List Edge
  | none => []
  | some p => p.F

/-- No level above `r` is used, nor the target of a pending union. -/
def Tops (r : Nat) (es : List (Option (List Edge))) (p : Option Pd) : Prop :=
  (∀ l E, es[l]? = some (some E) → l ≤ r) ∧ (∀ q, p = some q → q.m ≤ r) ∧ r < RS

theorem Tops.merged {r : Nat} {es : List (Option (List Edge))} {F : List Edge} {m : Nat}
    (h : ∀ l E, es[l]? = some (some E) → l ≤ r) (hm : m ≤ r) (hr : r < RS) : Tops r (US.merged F es m) none := by
  refine ⟨?_, (by intro q hq; cases hq), hr⟩
  intro l E hl
  by_cases hlm : l ≤ m
  · omega
  · refine h l E ?_
    unfold US.merged at hl
    rw [List.getElem?_append_right (by simp; omega), List.length_replicate,
      show l - m = (l - m - 1) + 1 by omega, List.getElem?_cons_succ, List.getElem?_drop] at hl
    rwa [show m + 1 + (l - m - 1) = l by omega] at hl

theorem tops_rest {r i : Nat} {es : List (Option (List Edge))} (h : ∀ l E, es[l]? = some (some E) → l ≤ r) :
    ∀ l E, (US.rest es i)[l]? = some (some E) → l ≤ r := by
  intro l E hl
  by_cases hli : i ≤ l
  · rw [US.rest_get hli] at hl; exact h l E hl
  · unfold US.rest at hl
    rw [List.getElem?_append_left (by simp; omega), List.getElem?_replicate, if_pos (by omega)] at hl
    cases hl

/-- The invariant: `es` is what the levels hold (while a union is pending: what they held when it began). -/
structure MInv (P : MPar) (n : Nat) (d : DKM) (es : List (Option (List Edge))) (p : Option Pd) : Prop where
  wf : d.c0.WF
  c0nv : d.c0.nVertices = n
  c0m : d.c0.marked = 0
  rng : ∀ e ∈ d.c0.live, InRange n e
  nv : d.nv = n
  lv : Lv n es
  cnt : wt es + (batch p).length + d.c0.live.length ≤ d.nTotal
  st : Stage P n d es p
  top : Tops d.maxR es p

/-- The edges the graph holds. -/
def held (d : DKM) (es : List (Option (List Edge))) (p : Option Pd) (e : Edge) : Prop :=
  e ∈ d.c0.live ∨ e ∈ batch p ∨ edgesIn es e

/-- The edges `contains` finds. -/
def seen (d : DKM) (es : List (Option (List Edge))) (p : Option Pd) (e : Edge) : Prop :=
  e ∈ d.c0.live ∨ (p.isSome = true ∧ d.tmpEdge = e) ∨ edgesIn es e

theorem MInv.seen_held {P : MPar} {n : Nat} {d : DKM} {es : List (Option (List Edge))} {p : Option Pd}
    (h : MInv P n d es p) {e : Edge} (hs : seen d es p e) : held d es p e := by
  rcases hs with h1 | ⟨h1, h2⟩ | h1
  · exact Or.inl h1
  · cases p with
    | none => cases h1
    | some p => exact Or.inr (Or.inl (h2 ▸ h.st.2.2.2.2.2.2.1))
  · exact Or.inr (Or.inr h1)

theorem init_inv (P : MPar) (n : Nat) : MInv P n (init P n) (List.replicate RS none) none where
  wf := C0.new_wf P.S n
  c0nv := rfl
  c0m := rfl
  rng := by intro e he; simp [init] at he
  nv := rfl
  lv := ⟨by simp, by intro E hE; simp [List.mem_replicate] at hE⟩
  cnt := by simp [init, wt, batch]
  st := ⟨rfl, by simp [init, US.stored]⟩
  top := ⟨(by intro l E h; rw [List.getElem?_replicate] at h; split at h <;> cases h), (by intro q hq; cases hq), by show 0 < RS; decide⟩

theorem init_held (P : MPar) (n : Nat) (e : Edge) : ¬ held (init P n) (List.replicate RS none) none e := by
  rintro (h | h | ⟨E, h, _⟩)
  · simp [init] at h
  · simp [batch] at h
  · simp [List.mem_replicate] at h

/-! ### contains -/

theorem anyAdj_eq {P : MPar} {n N : Nat} (hc : Ctx P n N) {e : Edge} (he : InRange n e) :
    ∀ {es : List (Option (List Edge))}, (∀ E, some E ∈ es → ∀ e ∈ E, InRange n e) →
    ∃ b, anyAdj P.k e (US.stored P.k (P.H n) n es) = .ok b ∧ (b = true ↔ edgesIn es e) := by
  intro es
  induction es with
  | nil => intro _; exact ⟨false, rfl, by simp [edgesIn]⟩
  | cons o es ih =>
    intro hr
    obtain ⟨b, h1, h2⟩ := ih (fun E hE => hr E (List.mem_cons_of_mem _ hE))
    cases o with
    | none =>
      refine ⟨b, h1, ?_⟩
      rw [h2]; simp [edgesIn]
    | some E =>
      have hk := hc.hk
      have ha := BT.encode_adj (k := P.k) (h := P.H n) (by omega) hc.hh hc.hn (hr E (by simp)) he
      simp only [US.stored, List.map_cons, Option.map_some, anyAdj, ha, use, Res.ok_bind]
      by_cases hm : e ∈ E
      · refine ⟨true, by simp [hm], ?_⟩
        simp only [true_iff]
        exact ⟨E, by simp, hm⟩
      · refine ⟨b, by simpa [hm, US.stored] using h1, ?_⟩
        rw [h2]
        unfold edgesIn
        constructor
        · rintro ⟨E', h3, h4⟩; exact ⟨E', List.mem_cons_of_mem _ h3, h4⟩
        · rintro ⟨E', h3, h4⟩
          rcases List.mem_cons.1 h3 with h5 | h5
          · cases h5; exact absurd h4 hm
          · exact ⟨E', h5, h4⟩

/-- `contains` returns, and finds exactly the edges of the buffer and of the levels (while a union is pending: of
the levels before the union, and the edge that triggered it). -/
theorem MInv.contains {P : MPar} {n N : Nat} (hc : Ctx P n N) {d : DKM} {es : List (Option (List Edge))}
    {p : Option Pd} (h : MInv P n d es p) {e : Edge} (he : InRange n e) :
    ∃ b, d.contains P e = .ok b ∧ (b = true ↔ seen d es p e) := by
  obtain ⟨b, h1, h2⟩ := anyAdj_eq hc he (fun E hE => (h.lv.ne E hE).2)
  unfold DKM.contains seen
  rw [h.wf.contains_eq]
  simp only [Res.ok_bind]
  by_cases hm : e ∈ d.c0.live
  · exact ⟨true, by simp [hm], by simp [hm]⟩
  · simp only [hm, decide_false, Bool.false_eq_true, if_false, false_or]
    cases p with
    | none =>
      obtain ⟨h3, h4⟩ := h.st
      rw [h3, if_pos rfl, h4]
      exact ⟨b, h1, by rw [h2]; simp⟩
    | some p =>
      obtain ⟨_, h3, _, _, _, h4, _⟩ := h.st
      rw [h3.fin, if_neg Bool.false_ne_true, h4]
      by_cases ht : d.tmpEdge = e
      · exact ⟨true, by simp [ht], by simp [ht]⟩
      · exact ⟨b, by simpa [ht] using h1, by rw [h2]; simp [ht]⟩

/-! ### the union step -/

theorem unionOp_finished {b : Nat} {H : Nat → Nat} {f : Nat} {ks : List (Option BT)} {s : US}
    (h : s.finish = true) : US.unionOp b H (f + 1) ks s = .ok (ks, s) := by
  unfold US.unionOp; rw [if_pos h]

/-- What a union step may do. -/
structure Stepped (P : MPar) (n : Nat) (d : DKM) (es : List (Option (List Edge))) (p : Option Pd)
    (d' : DKM) (es' : List (Option (List Edge))) (p' : Option Pd) : Prop where
  inv : MInv P n d' es' p'
  c0 : d'.c0 = d.c0
  nT : d'.nTotal = d.nTotal
  maxR : d'.maxR = d.maxR
  tmp : d'.tmpEdge = d.tmpEdge
  how : (p' = none ∧ p = none ∧ es' = es) ∨ (∃ q, p = some q ∧ p' = none ∧ es' = US.merged q.F es q.m ∧ Fit P n q.F es q.m) ∨
    (∃ q, p = some q ∧ p' = some ⟨q.F, q.m, q.D + d.us.iter⟩ ∧ es' = es ∧ d'.us.iter = d.us.iter)
  fin : ∀ q, p = some q → p' = none → US.work P.k (P.H n) q.F es (q.m + 1) ≤ q.D + d.us.iter

theorem Stepped.held {P : MPar} {n : Nat} {d d' : DKM} {es es' : List (Option (List Edge))} {p p' : Option Pd}
    (h : Stepped P n d es p d' es' p') (e : Edge) : held d' es' p' e ↔ held d es p e := by
  unfold DKM.held
  rw [h.c0]
  rcases h.how with ⟨h1, h2, h3⟩ | ⟨q, h1, h2, h3, _⟩ | ⟨q, h1, h2, h3, _⟩
  · rw [h1, h2, h3]
  · rw [h1, h2, h3, edgesIn_merged]
    simp [batch]
  · rw [h1, h2, h3]; rfl

/-- `unionOperation()` keeps every edge, or is undefined because the result is larger than the estimate. -/
theorem MInv.unionStep_any {P : MPar} {n : Nat} {d : DKM} {es : List (Option (List Edge))}
    {p : Option Pd} (h : MInv P n d es p) (hu : P.k * P.k ∣ 2 ^ 32 ∨ ∀ q, p = some q → Fit P n q.F es q.m) :
    (d.unionStep P = .ub ∧ ∃ q, p = some q ∧ ¬ Fit P n q.F es q.m) ∨
    ∃ d' es' p', d.unionStep P = .ok d' ∧ Stepped P n d es p d' es' p' := by
  cases p with
  | none =>
    right
    obtain ⟨h1, h2⟩ := h.st
    refine ⟨d, es, none, ?_, ⟨h, rfl, rfl, rfl, rfl, Or.inl ⟨rfl, rfl, rfl⟩, (by intro q hq; cases hq)⟩⟩
    unfold DKM.unionStep
    rw [unionOp_finished h1]; rfl
  | some p =>
    obtain ⟨h1, h2, h3, h4, h5, h6, h7, h8⟩ := h.st
    have hkl : d.ks.length = RS := by
      rw [h2.ks_eq, US.stored, List.length_map, US.rest_length (by have := h2.i_le; have := h1.hm; omega), h.lv.len]
    have hit : d.us.times < d.us.iter := by
      rw [h3]
      rcases Nat.eq_zero_or_pos d.us.iter with h0 | h0
      · exfalso
        have hF : 0 < p.F.length := List.length_pos_iff.2 h1.hF
        have h9 := iterSize_mul (t := US.totalIter (US.stored P.k (P.H n) n es) p.m (BT.encode P.k (P.H n) n p.F)) hF
        rw [← h5, h0] at h9
        have hk := h1.hk
        rw [totalIter_eq h1.hh (by omega)] at h9
        have := US.cnt_pos (b := P.k * P.k) (U := below P.k (P.H n) p.F) h1.hh
        have hkk : 0 < P.k * P.k := Nat.mul_pos (by omega) (by omega)
        have := Nat.mul_pos hkk this
        rw [Nat.mul_add] at h9
        omega
      · exact h0
    rcases unionOp_any h1 (hu.imp id (fun hu => hu p rfl)) (d.ks.length + 1) h2 hit
      (by have := h1.hm; rw [h.lv.len] at this; omega) with ⟨e0, e1⟩ | ⟨ks', s', e1, e2, e3⟩
    · left
      refine ⟨?_, p, rfl, e1⟩
      unfold DKM.unionStep; rw [e0]; rfl
    right
    have hrun : d.unionStep P = .ok { d with ks := ks', us := s' } := by
      unfold DKM.unionStep; rw [e1]; rfl
    rcases e3 with ⟨a1, a2, a3, a4⟩ | ⟨a1, a2, a3⟩
    · have hm : p.m < RS := by have := h1.hm; rwa [h.lv.len] at this
      refine ⟨_, US.merged p.F es p.m, none, hrun, ⟨⟨h.wf, h.c0nv, h.c0m, h.rng, h.nv,
        h.lv.merged hm h1.hF h1.hFr, ?_, ⟨a1, a2⟩, .merged h.top.1 (h.top.2.1 p rfl) h.top.2.2⟩, rfl, rfl, rfl, rfl, Or.inr (Or.inl ⟨p, rfl, rfl, rfl, a4⟩), (by intro q hq _; cases hq; rw [h3, Nat.sub_zero] at a3; exact a3)⟩⟩
      have h9 := wt_merged (F := p.F) (es := es) (m := p.m)
      have := h.cnt
      simp only [batch, List.length_nil] at this ⊢
      omega
    · rw [h3, Nat.sub_zero] at a1 a3
      refine ⟨_, es, some ⟨p.F, p.m, p.D + d.us.iter⟩, hrun, ⟨⟨h.wf, h.c0nv, h.c0m, h.rng, h.nv, h.lv, h.cnt,
        ⟨h1, a1, a2, a3, by rw [← h5]; exact e2, h6, h7, ?_⟩, ⟨h.top.1, (by intro q hq; cases hq; exact h.top.2.1 p rfl), h.top.2.2⟩⟩, rfl, rfl, rfl, rfl,
        Or.inr (Or.inr ⟨p, rfl, rfl, rfl, e2⟩), (by intro q _ hq; cases hq)⟩⟩
      show s'.iter * (1 + d.c0.live.length) ≤ p.D + d.us.iter
      rw [e2]; omega

theorem MInv.fits {P : MPar} {n N : Nat} (hc : Ctx P n N) {d : DKM} {es : List (Option (List Edge))} {p : Option Pd}
    (h : MInv P n d es p) (hN : d.nTotal ≤ N) : ∀ q, p = some q → Fit P n q.F es q.m := by
  intro q hq
  subst hq
  have hb := h.st.1
  have hcnt := h.cnt
  simp only [batch] at hcnt
  exact hc.fits h.lv hb.hF hb.hFr (by have := hb.hm; rwa [h.lv.len] at this) (by omega)

/-- `unionOperation()` returns and keeps every edge. -/
theorem MInv.unionStep {P : MPar} {n N : Nat} (hc : Ctx P n N) {d : DKM} {es : List (Option (List Edge))}
    {p : Option Pd} (h : MInv P n d es p) (hN : d.nTotal ≤ N) :
    ∃ d' es' p', d.unionStep P = .ok d' ∧ Stepped P n d es p d' es' p' := by
  rcases h.unionStep_any (Or.inr (h.fits hc hN)) with ⟨_, q, h1, h2⟩ | h1
  · exact absurd (h.fits hc hN q h1) h2
  · exact h1

/-- The same without the bound on the number of insertions: if `unionOperation()` returns, it kept every edge. -/
theorem MInv.unionStep_ok {P : MPar} {n N : Nat} (hc : Cond P n N) {d d' : DKM} {es : List (Option (List Edge))}
    {p : Option Pd} (h : MInv P n d es p) (hN : d.nTotal ≤ N) (hd : d.unionStep P = .ok d') :
    ∃ es' p', Stepped P n d es p d' es' p' := by
  rcases h.unionStep_any (hc.est.imp id (fun hc' => h.fits hc' hN)) with ⟨h1, _⟩ | ⟨d2, es', p', h1, h2⟩
  · rw [h1] at hd; cases hd
  · rw [h1] at hd; cases hd; exact ⟨es', p', h2⟩

/-! ### the flush -/

theorem selectLevel_lt (S : Sizing) (m : Nat) : ∀ (ks : List (Option BT)) (i acc r : Nat),
    selectLevel S m ks i acc = some r → i ≤ r ∧ r < i + ks.length := by
  intro ks
  induction ks with
  | nil => intro i acc r h; simp [selectLevel] at h
  | cons o ks ih =>
    intro i acc r h
    simp only [selectLevel] at h
    split at h
    · cases h; simp
    · have := ih (i + 1) _ r h; simp; omega

theorem selectLevel_some (S : Sizing) (m : Nat) : ∀ (ks : List (Option BT)) (i acc tot : Nat),
    (∀ l, l + 1 = i + ks.length → tot + 1 < S.maxsz m (l + 1)) → ks ≠ [] →
    acc + (ks.map (fun o => o.elim 0 BT.ne)).sum ≤ tot →
    ∃ r, selectLevel S m ks i acc = some r := by
  intro ks
  induction ks with
  | nil => intro i acc tot _ h; exact absurd rfl h
  | cons o ks ih =>
    intro i acc tot htop _ hle
    simp only [List.map_cons, List.sum_cons] at hle
    simp only [selectLevel]
    split
    · exact ⟨i, rfl⟩
    · rename_i hn
      by_cases hks : ks = []
      · subst hks
        exfalso
        have := htop i (by simp)
        simp at hle
        omega
      · exact ih (i + 1) _ tot (fun l hl => htop l (by simp at hl ⊢; omega)) hks (by omega)

theorem sum_ne {k h n : Nat} (es : List (Option (List Edge))) :
    ((US.stored k h n es).map (fun o => o.elim 0 BT.ne)).sum = wt es := by
  induction es with
  | nil => rfl
  | cons o es ih =>
    simp only [US.stored, wt, List.map_cons, List.sum_cons] at ih ⊢
    rw [ih]
    cases o <;> rfl

/-- The level `add_edge` merges into. -/
def Target (P : MPar) (d : DKM) (es es' : List (Option (List Edge))) (p' : Option Pd) (F : List Edge) : Prop :=
  ∃ i, i < RS ∧ selectLevel P.S (max d.nv d.nTotal) d.ks 0 (P.S.maxsz (max d.nv d.nTotal) 0) = some i ∧
    (p' = none → es' = US.merged F es i ∧ US.work P.k (P.H d.nv) F es (i + 1) ≤
      US.iterSize (US.totalIter d.ks i (BT.encode P.k (P.H d.nv) d.nv F)) F.length ∧
      (Fit P d.nv F es i ∨ US.work P.k (P.H d.nv) F es (i + 1) = 0)) ∧
    (∀ q, p' = some q → q.m = i ∧ q.D = US.iterSize (US.totalIter d.ks i (BT.encode P.k (P.H d.nv) d.nv F)) F.length)

/-- A flush from levels `es` (no union pending, or the pending one abandoned): every edge of the
buffer and of the levels, and the new edge, are in the batch or in the levels, or the call is undefined because the result is larger
than the estimate. -/
theorem flush_any {P : MPar} (hT : P.S.Top) {n : Nat} (hc : Ctx P n 0) {d : DKM} {es : List (Option (List Edge))}
    (hwf : d.c0.WF) (hcnv : d.c0.nVertices = n) (hrng : ∀ e ∈ d.c0.live, InRange n e) (hnv : d.nv = n)
    (hlv : Lv n es) (htop : ∀ l E, es[l]? = some (some E) → l ≤ d.maxR) (hmax : d.maxR < RS)
    (hcnt : wt es + d.c0.live.length ≤ d.nTotal) (hks : d.ks = US.stored P.k (P.H n) n es)
    (hfull : ¬ d.c0.size < P.S.maxsz (max d.nv d.nTotal) 0)
    {e : Edge} (he : InRange n e) (hu : P.k * P.k ∣ 2 ^ 32 ∨ ∀ i, i < RS → Fit P n (d.c0.live ++ [e]) es i) :
    (d.flush P e = .ub ∧ ∃ i, i < RS ∧ ¬ Fit P n (d.c0.live ++ [e]) es i) ∨
    ∃ d' es' p', d.flush P e = .ok d' ∧ MInv P n d' es' p' ∧ d'.nTotal = d.nTotal + 1 ∧ d'.c0.live = [] ∧
      (∀ x, held d' es' p' x ↔ x = e ∨ x ∈ d.c0.live ∨ edgesIn es x) ∧
      (∀ q, p' = some q → q.F = d.c0.live ++ [e] ∧ es' = es) ∧ d'.tmpEdge = e ∧ Target P d es es' p' (d.c0.live ++ [e]) := by
  have hsz := hwf.size_eq
  obtain ⟨i, hi⟩ := selectLevel_some P.S (max d.nv d.nTotal) d.ks 0 (P.S.maxsz (max d.nv d.nTotal) 0) d.nTotal
    (by
      intro l hl
      have : l + 1 = RS := by rw [hl, hks, US.stored, List.length_map, hlv.len]; simp
      rw [this, hT]
      have := hc.two
      omega)
    (by
      intro hh
      have : d.ks.length = RS := by rw [hks, US.stored, List.length_map, hlv.len]
      rw [hh] at this; simp [RS] at this)
    (by rw [hks, sum_ne]; omega)
  have hilt := (selectLevel_lt _ _ _ _ _ _ hi).2
  rw [Nat.zero_add, hks, US.stored, List.length_map, hlv.len] at hilt
  obtain ⟨c, b1, b2, b3, b4, b5, b6, b7⟩ := hwf.clean_ok
  have hFne : d.c0.live ++ [e] ≠ [] := by simp
  have hFr : ∀ x ∈ d.c0.live ++ [e], InRange n x := by
    intro x hx
    rcases List.mem_append.1 hx with h1 | h1
    · exact hrng x h1
    · rw [List.mem_singleton.1 h1]; exact he
  have hlen : (d.c0.live ++ [e]).length = d.c0.live.length + 1 := by simp
  have hin : US.Base P.k (P.H n) n (d.c0.live ++ [e]) es i := ⟨hc.hk, hc.hh, hc.hn, hFne, hFr, hlv.ne, by rw [hlv.len]; exact hilt⟩
  obtain ⟨ks0, s0, c1, c2, c3, c4⟩ := US.create_spec hin
  have hiter : s0.iter = US.iterSize (US.totalIter (US.stored P.k (P.H n) n es) i
      (BT.encode P.k (P.H n) n (d.c0.live ++ [e]))) (d.c0.live ++ [e]).length := by
    unfold US.create at c1
    rw [if_neg (by rw [hlen]; omega)] at c1
    simp only at c1
    split at c1
    · cases c1; rfl
    · rw [Res.bind_eq_ok] at c1
      obtain ⟨ks, _, hh⟩ := c1
      cases hh; rfl
  have hcreate : US.create (fun E n => BT.encode P.k (P.H n) n E) (d.c0.live ++ [e]) d.nv d.ks i = .ok (ks0, s0) := by
    rw [← c1, hnv, hks]
    rfl
  have hkl : ks0.length = RS := by rw [c3, hlv.len]
  have hrun : d.flush P e = (do
      let d' ← DKM.unionStep P ⟨max i d.maxR, d.nv, d.nTotal, c, ks0, d.ks, e, s0⟩
      .ok { d' with nTotal := d'.nTotal + 1 }) := by
    unfold DKM.flush
    rw [hi]
    simp only [hwf.converted_eq, b1, hcreate, Res.ok_bind]
  rw [hrun]
  have hdone : ∀ (ks' : List (Option BT)) (s' : US), s'.finish = true →
      ks' = US.stored P.k (P.H n) n (US.merged (d.c0.live ++ [e]) es i) →
      MInv P n ⟨max i d.maxR, d.nv, d.nTotal + 1, c, ks', d.ks, e, s'⟩ (US.merged (d.c0.live ++ [e]) es i) none := by
    intro ks' s' f1 f2
    refine ⟨b2, by rw [b7, hcnv], b5, by rw [b3]; simp, hnv, hlv.merged hilt hFne hFr, ?_, ⟨f1, f2⟩,
      .merged (fun l E hl => le_trans (htop l E hl) (le_max_right _ _)) (le_max_left _ _) (max_lt hilt hmax)⟩
    have h9 := wt_merged (F := d.c0.live ++ [e]) (es := es) (m := i)
    simp only [batch, List.length_nil, b3]
    omega
  have hheld : ∀ x, (x ∈ d.c0.live ++ [e] ∨ edgesIn es x) ↔ (x = e ∨ x ∈ d.c0.live ∨ edgesIn es x) := by
    intro x
    rw [List.mem_append, List.mem_singleton]
    tauto
  rcases c4 with ⟨f1, f2, f3⟩ | ⟨f1, f2, f3⟩
  · have hst : DKM.unionStep P ⟨max i d.maxR, d.nv, d.nTotal, c, ks0, d.ks, e, s0⟩ =
        .ok ⟨max i d.maxR, d.nv, d.nTotal, c, ks0, d.ks, e, s0⟩ := by
      unfold DKM.unionStep
      rw [unionOp_finished f1]; rfl
    rw [hst]
    right
    refine ⟨_, _, none, rfl, hdone ks0 s0 f1 f2, rfl, b3, ?_, (by intro q hq; cases hq), rfl,
      ⟨i, hilt, hi, fun _ => ⟨rfl, by rw [hnv]; exact le_trans (le_of_eq f3) (Nat.zero_le _), Or.inr (by rw [hnv]; exact f3)⟩, by intro q hq; cases hq⟩⟩
    intro x
    unfold held
    rw [edgesIn_merged, hheld]
    simp [batch, b3]
  · rcases unionOp_any hin (hu.imp id (fun hu => hu i hilt)) (ks0.length + 1) f1 (by rw [f2]; exact c2) (by omega) with
      ⟨e0, e1⟩ | ⟨ks', s', e1, e2, e3⟩
    · left
      refine ⟨?_, i, hilt, e1⟩
      unfold DKM.unionStep
      rw [e0]; rfl
    right
    have hst : DKM.unionStep P ⟨max i d.maxR, d.nv, d.nTotal, c, ks0, d.ks, e, s0⟩ =
        .ok ⟨max i d.maxR, d.nv, d.nTotal, c, ks', d.ks, e, s'⟩ := by
      unfold DKM.unionStep
      rw [e1]; rfl
    rw [hst]
    rcases e3 with ⟨a1, a2, a3, a4⟩ | ⟨a1, a2, a3⟩
    · refine ⟨_, _, none, rfl, hdone ks' s' a1 a2, rfl, b3, ?_, (by intro q hq; cases hq), rfl,
      ⟨i, hilt, hi, fun _ => ⟨rfl, by rw [f2, Nat.sub_zero, Nat.zero_add, hiter] at a3; rw [hnv, hks]; exact a3, Or.inl (by rw [hnv]; exact a4)⟩, by intro q hq; cases hq⟩⟩
      intro x
      unfold held
      rw [edgesIn_merged, hheld]
      simp [batch, b3]
    · rw [f2, Nat.sub_zero, Nat.zero_add] at a1 a3
      refine ⟨_, es, some ⟨d.c0.live ++ [e], i, s0.iter⟩, rfl, ⟨b2, by show c.nVertices = n; rw [b7, hcnv], b5,
        by show ∀ x ∈ c.live, _; rw [b3]; simp, hnv, hlv, ?_,
        ⟨hin, a1, a2, a3, by rw [← hiter]; exact e2, hks, by simp, ?_⟩,
        ⟨fun l E hl => le_trans (htop l E hl) (le_max_right _ _), (by intro q hq; cases hq; exact le_max_left _ _), max_lt hilt hmax⟩⟩, rfl, b3, ?_, ?_, rfl,
        ⟨i, hilt, hi, (by intro hq; cases hq), (by intro q hq; cases hq; exact ⟨rfl, by rw [hnv, hks]; exact hiter⟩)⟩⟩
      · simp only [batch, b3, hlen, List.length_nil]
        omega
      · simp only [b3, List.length_nil, e2]; omega
      · intro x
        unfold held
        rw [← hheld]
        simp [batch, b3]
      · intro q hq
        cases hq
        exact ⟨rfl, rfl⟩

/-- A flush within the estimate returns. -/
theorem flush_spec {P : MPar} (hT : P.S.Top) {n N : Nat} (hc : Ctx P n N) {d : DKM} {es : List (Option (List Edge))}
    (hwf : d.c0.WF) (hcnv : d.c0.nVertices = n) (hrng : ∀ e ∈ d.c0.live, InRange n e) (hnv : d.nv = n)
    (hlv : Lv n es) (htop : ∀ l E, es[l]? = some (some E) → l ≤ d.maxR) (hmax : d.maxR < RS)
    (hcnt : wt es + d.c0.live.length ≤ d.nTotal) (hks : d.ks = US.stored P.k (P.H n) n es)
    (hN : d.nTotal + 1 ≤ N) (hfull : ¬ d.c0.size < P.S.maxsz (max d.nv d.nTotal) 0)
    {e : Edge} (he : InRange n e) :
    ∃ d' es' p', d.flush P e = .ok d' ∧ MInv P n d' es' p' ∧ d'.nTotal = d.nTotal + 1 ∧ d'.c0.live = [] ∧
      (∀ x, held d' es' p' x ↔ x = e ∨ x ∈ d.c0.live ∨ edgesIn es x) ∧
      (∀ q, p' = some q → q.F = d.c0.live ++ [e] ∧ es' = es) ∧ d'.tmpEdge = e ∧ Target P d es es' p' (d.c0.live ++ [e]) := by
  have hfit : ∀ i, i < RS → Fit P n (d.c0.live ++ [e]) es i := fun i hi => hc.fits hlv (by simp)
    (by
      intro x hx
      rcases List.mem_append.1 hx with h1 | h1
      · exact hrng x h1
      · rw [List.mem_singleton.1 h1]; exact he) hi (by simp; omega)
  rcases flush_any hT hc.zero hwf hcnv hrng hnv hlv htop hmax hcnt hks hfull he (Or.inr hfit) with ⟨_, i, h1, h2⟩ | h
  · exact absurd (hfit i h1) h2
  · exact h

/-! ### add_edge -/

/-- The two ways `add_edge e` of `d` goes on after its merge step took it to `d1`: it returns holding `e` as well, or
the buffer is full while a merge is pending (aborted by the assertion, or, without assertions, the merge is dropped). -/
def AddOut (P : MPar) (n : Nat) (d : DKM) (es : List (Option (List Edge))) (p : Option Pd) (e : Edge)
    (d1 : DKM) (es1 : List (Option (List Edge))) (p1 : Option Pd) : Prop :=
    ((∃ d' es' p', d.addEdge P e = .ok d' ∧ MInv P n d' es' p' ∧
        (∀ x, held d' es' p' x ↔ x = e ∨ held d es p x) ∧
        ((seen d1 es1 p1 e ∧ d' = d1 ∧ es' = es1 ∧ p' = p1) ∨
         (¬ seen d1 es1 p1 e ∧ d'.nTotal = d.nTotal + 1 ∧
          ((d1.c0.live.length < P.S.maxsz (max n d.nTotal) 0 ∧ d'.c0.live = d1.c0.live ++ [e] ∧ p' = p1 ∧ es' = es1 ∧
              d'.us = d1.us ∧ d'.tmpEdge = d1.tmpEdge) ∨
           (P.S.maxsz (max n d.nTotal) 0 ≤ d1.c0.live.length ∧ p1 = none ∧ d'.c0.live = [] ∧ d'.tmpEdge = e ∧
              (∀ q, p' = some q → q.F = d1.c0.live ++ [e] ∧ es' = es1) ∧
              Target P d1 es1 es' p' (d1.c0.live ++ [e])))))) ∨
     (¬ seen d1 es1 p1 e ∧ P.S.maxsz (max n d.nTotal) 0 ≤ d1.c0.live.length ∧ ∃ q, p1 = some q ∧
        ((P.nd = false ∧ d.addEdge P e = .abort) ∨
         (P.nd = true ∧ ∃ d' es' p', d.addEdge P e = .ok d' ∧ MInv P n d' es' p' ∧
            (∀ x, held d' es' p' x → x = e ∨ held d es p x) ∧ held d' es' p' e ∧ d'.nTotal = d.nTotal + 1 ∧
            d'.c0.live = [] ∧ d'.tmpEdge = e ∧ (∀ q, p' = some q → q.F = d1.c0.live ++ [e] ∧
              es' = US.rest es1 d1.us.ki) ∧
            Target P d1 (US.rest es1 d1.us.ki) es' p' (d1.c0.live ++ [e])))))

/-- The outcome of `add_edge`, whatever the number of insertions so far: undefined behaviour only if the size estimate
is too small for one of the merges. -/
theorem MInv.addEdge_any {P : MPar} (hT : P.S.Top) {n : Nat} (hc : Ctx P n 0) {d : DKM}
    {es : List (Option (List Edge))} {p : Option Pd} (h : MInv P n d es p)
    (hu : P.k * P.k ∣ 2 ^ 32 ∨ Ctx P n (d.nTotal + 1)) {e : Edge} (he : InRange n e) :
    (d.addEdge P e = .ub ∧ ¬ Ctx P n (d.nTotal + 1)) ∨ ∃ d1 es1 p1, Stepped P n d es p d1 es1 p1 ∧
      AddOut P n d es p e d1 es1 p1 := by
  rcases h.unionStep_any (hu.imp id (fun hc => h.fits hc (Nat.le_succ _))) with ⟨u0, q, u1, u2⟩ | ⟨d1, es1, p1, u0, u⟩
  · left
    refine ⟨?_, fun hc => u2 (h.fits hc (Nat.le_succ _) q u1)⟩
    unfold DKM.addEdge
    rw [u0]; rfl
  have hi := u.inv
  obtain ⟨b, hb1, hb2⟩ := hi.contains hc he
  have hsz := hi.wf.size_eq
  have hmk := hi.wf.marked_eq
  have hll := hi.wf.live_length
  have hm0 := hi.c0m
  have hnv := hi.nv
  have hrun : d.addEdge P e = (if b then .ok d1
      else if d1.c0.size < P.S.maxsz (max d1.nv d1.nTotal) 0 then do
        let c ← d1.c0.insert P.S e d1.nTotal
        .ok { d1 with c0 := c, nTotal := d1.nTotal + 1 }
      else if d1.us.finish || P.nd then flush P d1 e
      else .abort) := by
    unfold DKM.addEdge
    rw [u0]
    simp only [Res.ok_bind, hb1]
  by_cases hs : seen d1 es1 p1 e
  · refine Or.inr ⟨d1, es1, p1, u, Or.inl ?_⟩
    rw [hb2.2 hs, if_pos rfl] at hrun
    refine ⟨d1, es1, p1, hrun, hi, ?_, Or.inl ⟨hs, rfl, rfl, rfl⟩⟩
    intro x
    rw [u.held]
    constructor
    · exact Or.inr
    · rintro (rfl | h1)
      · exact (u.held _).1 (hi.seen_held hs)
      · exact h1
  · have hbf : b = false := by
      cases b with
      | false => rfl
      | true => exact absurd (hb2.1 rfl) hs
    rw [hbf] at hrun
    simp only [Bool.false_eq_true, if_false] at hrun
    have hl : e ∉ d1.c0.live := fun hh => hs (Or.inl hh)
    have hmax : max d1.nv d1.nTotal = max n d.nTotal := by rw [hnv, u.nT]
    by_cases hlt : d1.c0.size < P.S.maxsz (max d1.nv d1.nTotal) 0
    · refine Or.inr ⟨d1, es1, p1, u, Or.inl ?_⟩
      rw [if_pos hlt] at hrun
      have hroom : d1.c0.room P.S d1.nTotal := by
        unfold C0.room
        rw [hi.c0nv, ← hnv]
        have : d1.c0.nElements = d1.c0.size := by omega
        omega
      obtain ⟨c', a1, a2, a3, a4, a5, a6⟩ := C0.insert_absent hi.wf hl hroom
      rw [a1] at hrun
      simp only [Res.ok_bind] at hrun
      refine ⟨_, es1, p1, hrun, ⟨a2, ?_, ?_, ?_, hnv, hi.lv, ?_, ?_, hi.top⟩, ?_, Or.inr ⟨hs, ?_, Or.inl ⟨?_, a3, rfl, rfl, rfl, rfl⟩⟩⟩
      · show c'.nVertices = n; rw [a6, hi.c0nv]
      · show c'.marked = 0; rw [a5, hm0]
      · show ∀ x ∈ c'.live, _
        rw [a3]
        intro x hx
        rcases List.mem_append.1 hx with h1 | h1
        · exact hi.rng x h1
        · rw [List.mem_singleton.1 h1]; exact he
      · show _ + _ + c'.live.length ≤ d1.nTotal + 1
        rw [a3, List.length_append, List.length_singleton]
        have := hi.cnt
        omega
      · have hst := hi.st
        cases p1 with
        | none => exact hst
        | some q =>
          obtain ⟨h1, h2, h3, h4, h5, h6, h7, h8⟩ := hst
          refine ⟨h1, h2, h3, h4, h5, h6, h7, ?_⟩
          show d1.us.iter * (1 + c'.live.length) ≤ q.D
          rw [a3, List.length_append, List.length_singleton]
          -- the step before the insertion paid for it
          rcases u.how with ⟨g1, _, _⟩ | ⟨q0, _, g1, _⟩ | ⟨q0, g1, g2, g3, g4⟩
          · cases g1
          · cases g1
          · subst g1
            have hold := h.st.2.2.2.2.2.2.2
            cases g2
            simp only
            rw [g4, u.c0, ← Nat.add_assoc, Nat.mul_add, Nat.mul_one]
            omega
      · intro x
        rw [← u.held]
        unfold held
        show (x ∈ c'.live ∨ _) ↔ _
        rw [a3, List.mem_append, List.mem_singleton]
        tauto
      · show d1.nTotal + 1 = _; rw [u.nT]
      · rw [← hmax, ← hsz]; exact hlt
    · rw [if_neg hlt] at hrun
      have hge : P.S.maxsz (max n d.nTotal) 0 ≤ d1.c0.live.length := by rw [← hmax, ← hsz]; omega
      have hcnt := hi.cnt
      have hFr : ∀ x ∈ d1.c0.live ++ [e], InRange n x := by
        intro x hx
        rcases List.mem_append.1 hx with h1 | h1
        · exact hi.rng x h1
        · rw [List.mem_singleton.1 h1]; exact he
      cases p1 with
      | none =>
        obtain ⟨f1, f2⟩ := hi.st
        rw [f1] at hrun
        simp only [Bool.true_or, if_true] at hrun
        have hcnt' : wt es1 + d1.c0.live.length ≤ d1.nTotal := by simpa [batch] using hcnt
        have hfit : Ctx P n (d.nTotal + 1) → ∀ i, i < RS → Fit P n (d1.c0.live ++ [e]) es1 i := fun hc' i hi' =>
          hc'.fits hi.lv (by simp) hFr hi' (by have := u.nT; simp; omega)
        rcases flush_any hT hc hi.wf hi.c0nv hi.rng hnv hi.lv hi.top.1 hi.top.2.2 hcnt' f2 hlt he (hu.imp id hfit) with
          ⟨r0, i, r1, r2⟩ | ⟨d', es', p', r1, r2, r3, r4, r5, r6, r7, r8⟩
        · exact Or.inl ⟨by rw [hrun, r0], fun hc' => r2 (hfit hc' i r1)⟩
        refine Or.inr ⟨d1, es1, none, u, Or.inl ?_⟩
        refine ⟨d', es', p', by rw [hrun, r1], r2, ?_, Or.inr ⟨hs, by rw [r3, u.nT], Or.inr ⟨hge, rfl, r4, r7, r6, r8⟩⟩⟩
        intro x
        rw [r5, ← u.held]
        unfold held
        simp [batch]
      | some q =>
        obtain ⟨h1, h2, h3, h4, h5, h6, h7, h8⟩ := hi.st
        rw [h2.fin] at hrun
        cases hnd : P.nd with
        | false => exact Or.inr ⟨d1, es1, some q, u, Or.inr ⟨hs, hge, q, rfl, Or.inl ⟨hnd, by simpa [hnd] using hrun⟩⟩⟩
        | true =>
          rw [hnd] at hrun
          simp only [Bool.or_true, if_true] at hrun
          have hki : d1.us.ki ≤ RS := by have := h2.i_le; have := h1.hm; rw [hi.lv.len] at this; omega
          have hw := wt_rest (es := es1) (i := d1.us.ki)
          have hcnt' : wt (US.rest es1 d1.us.ki) + d1.c0.live.length ≤ d1.nTotal := by omega
          have hfit : Ctx P n (d.nTotal + 1) → ∀ i, i < RS → Fit P n (d1.c0.live ++ [e]) (US.rest es1 d1.us.ki) i :=
            fun hc' i hi' => hc'.fits (hi.lv.rest hki) (by simp) hFr hi' (by have := u.nT; simp; omega)
          rcases flush_any hT hc hi.wf hi.c0nv hi.rng hnv (hi.lv.rest hki) (tops_rest hi.top.1) hi.top.2.2 hcnt'
            h2.ks_eq hlt he (hu.imp id hfit) with ⟨r0, i, r1, r2⟩ | ⟨d', es', p', r1, r2, r3, r4, r5, r6, r7, r8⟩
          · exact Or.inl ⟨by rw [hrun, r0], fun hc' => r2 (hfit hc' i r1)⟩
          refine Or.inr ⟨d1, es1, some q, u, Or.inr ⟨hs, hge, q, rfl, Or.inr ?_⟩⟩
          refine ⟨hnd, d', es', p', by rw [hrun, r1], r2, ?_, (r5 e).2 (Or.inl rfl), by rw [r3, u.nT], r4, r7,
            fun q hq => r6 q hq, r8⟩
          intro x hx
          rcases (r5 x).1 hx with h9 | h9 | h9
          · exact Or.inl h9
          · exact Or.inr ((u.held x).1 (Or.inl h9))
          · exact Or.inr ((u.held x).1 (Or.inr (Or.inr (edgesIn_rest h9))))

/-- The outcome of `add_edge` while the estimates are large enough. -/
theorem MInv.addEdge {P : MPar} (hT : P.S.Top) {n N : Nat} (hc : Ctx P n N) {d : DKM}
    {es : List (Option (List Edge))} {p : Option Pd} (h : MInv P n d es p) (hN : d.nTotal + 1 ≤ N)
    {e : Edge} (he : InRange n e) :
    ∃ d1 es1 p1, Stepped P n d es p d1 es1 p1 ∧ AddOut P n d es p e d1 es1 p1 := by
  rcases h.addEdge_any hT hc.zero (Or.inr (hc.mono hN)) he with ⟨_, h1⟩ | h1
  · exact absurd (hc.mono hN) h1
  · exact h1

end DKM
end DK2
