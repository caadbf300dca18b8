import Verif.MunroHist
/-!
# `DKtree_delay_munro`: a pending union is finished before the next one starts

Each `add_edge` does `iteration_size` steps of the pending union; this file bounds the number of steps it needs.
-/

namespace DK2
open Bits

namespace DKM

/-- The levels from `L` on are empty and no union is heading there. -/
def Low (L : Nat) (es : List (Option (List Edge))) (p : Option Pd) : Prop :=
  (∀ o ∈ es.drop L, o = none) ∧ ∀ q, p = some q → q.m < L

theorem Low.occ {L : Nat} {es : List (Option (List Edge))} {p : Option Pd} (h : Low L es p) (j : Nat) :
    occ (es.take j) ≤ L := by
  have h1 : DKM.occ (es.take j) ≤ DKM.occ es := (List.take_sublist j es).countP_le
  have h2 : DKM.occ es = DKM.occ (es.take L) + DKM.occ (es.drop L) := by
    unfold DKM.occ
    rw [← List.countP_append, List.take_append_drop]
  have h3 : DKM.occ (es.drop L) = 0 := by
    unfold DKM.occ
    rw [List.countP_eq_zero]
    intro o ho
    rw [h.1 o ho]; simp
  have h4 : DKM.occ (es.take L) ≤ L := by
    refine le_trans (List.countP_le_length) ?_
    rw [List.length_take]; omega
  omega

theorem low_merged {L : Nat} {es : List (Option (List Edge))} {F : List Edge} {m : Nat}
    (h : ∀ o ∈ es.drop L, o = none) (hm : m < L) : ∀ o ∈ (US.merged F es m).drop L, o = none := by
  intro o ho
  unfold US.merged at ho
  rw [List.drop_append, List.length_replicate] at ho
  rcases List.mem_append.1 ho with h1 | h1
  · have := List.mem_of_mem_drop h1
    simp [List.mem_replicate] at this; exact this.2
  · obtain ⟨j, hj⟩ : ∃ j, L - m = j + 1 := ⟨L - m - 1, by omega⟩
    rw [hj, List.drop_succ_cons, List.drop_drop] at h1
    exact h o (by have : m + 1 + j = L := by omega
                  rwa [this] at h1)

theorem low_rest {L : Nat} {es : List (Option (List Edge))} {i : Nat}
    (h : ∀ o ∈ es.drop L, o = none) : ∀ o ∈ (US.rest es i).drop L, o = none := by
  intro o ho
  unfold US.rest at ho
  rw [List.drop_append, List.length_replicate] at ho
  rcases List.mem_append.1 ho with h1 | h1
  · have := List.mem_of_mem_drop h1
    simp [List.mem_replicate] at this; exact this.2
  · rw [List.drop_drop] at h1
    have : i + (L - i) = L + (i - L) := by omega
    rw [this, ← List.drop_drop] at h1
    exact h o (List.mem_of_mem_drop h1)

theorem selectLevel_ge (S : Sizing) (m : Nat) : ∀ (ks : List (Option BT)) (i acc r : Nat),
    selectLevel S m ks i acc = some r → ∀ j, i ≤ j → j < r →
    S.maxsz m (j + 1) ≤ acc + (ks.map (fun o => o.elim 0 BT.ne)).sum + 1 := by
  intro ks
  induction ks with
  | nil => intro i acc r h; simp [selectLevel] at h
  | cons o ks ih =>
    intro i acc r h j hij hjr
    simp only [selectLevel] at h
    simp only [List.map_cons, List.sum_cons]
    split at h
    · cases h; omega
    · rename_i hn
      by_cases hj : j = i
      · subst hj; omega
      · have := ih (i + 1) _ r h j (by omega) hjr
        omega

/-- At the assertion the pending union merges more than `k²` trees. -/
theorem Stuck.occ {P : MPar} {n : Nat} {d : DKM} {es : List (Option (List Edge))} {p : Option Pd} {e : Edge}
    {d1 : DKM} {es1 : List (Option (List Edge))} {q : Pd} (h : Stuck P n d es p e d1 es1 q) (hi : MInv P n d es p)
    (hc : Cap P n d p) : P.k * P.k < occ (es1.take (q.m + 1)) := by
  by_contra hcon
  rw [Nat.not_lt] at hcon
  obtain ⟨g1, g2, g3, g4, g5, g6, g7, g8⟩ := h.st.inv.st
  have hfull := h.full
  rcases h.st.how with ⟨a, _⟩ | ⟨_, _, a, _⟩ | ⟨q0, a1, a2, a3, a4⟩
  · cases a
  · cases a
  · subst a1 a3
    cases a2
    obtain ⟨f1, f2, f3, f4, f5, f6, f7, f8⟩ := hi.st
    have hcap := (hc _ (le_refl _)).2 q0 rfl
    have hF : q0.F ≠ [] := f1.hF
    have hlen : 0 < q0.F.length := List.length_pos_iff.2 hF
    have hk := f1.hk
    have w1 : US.work P.k (P.H n) q0.F es1 (q0.m + 1) ≤
        US.totalIter (US.stored P.k (P.H n) n es1) q0.m (BT.encode P.k (P.H n) n q0.F) :=
      work_le (n := n) f1.hh (by omega) hF (fun E hE => (hi.lv.ne E hE).1) hcon
    have w2 := iterSize_mul (t := US.totalIter (US.stored P.k (P.H n) n es1) q0.m (BT.encode P.k (P.H n) n q0.F)) hlen
    rw [← f5] at w2
    rw [h.st.c0] at hfull
    have w3 : q0.F.length * d.us.iter ≤ q0.D + d.us.iter := by
      have : q0.F.length ≤ 1 + d.c0.live.length + 1 := by omega
      have := Nat.mul_le_mul_right d.us.iter this
      rw [Nat.add_mul (1 + d.c0.live.length), Nat.one_mul, Nat.mul_comm (1 + _)] at this
      omega
    simp only at g4
    omega

/-- The level bound: no union heads to level `L` or above within `N` insertions. -/
def Below (S : Sizing) (n N L : Nat) : Prop := RS ≤ L ∨ ∀ m, n ≤ m → m ≤ max n N → N < S.maxsz m L

theorem low_init (P : MPar) (n L : Nat) : Low L (List.replicate RS none) none ∧ Cap P n (init P n) none := by
  refine ⟨⟨?_, by intro q hq; cases hq⟩, ?_⟩
  · intro o ho
    have := List.mem_of_mem_drop ho
    simp [List.mem_replicate] at this; exact this.2
  · intro m _
    exact ⟨by simp [init], by intro q hq; cases hq⟩

theorem Stepped.low {P : MPar} {n L : Nat} {d d' : DKM} {es es' : List (Option (List Edge))} {p p' : Option Pd}
    (u : Stepped P n d es p d' es' p') (h : Low L es p) (hc : Cap P n d p) : Low L es' p' ∧ Cap P n d' p' := by
  have hlive : ∀ m, max n d'.nTotal ≤ m → d'.c0.live.length ≤ P.S.maxsz m 0 + 1 := by
    intro m hm; rw [u.c0]; exact (hc m (by rw [← u.nT]; exact hm)).1
  rcases u.how with ⟨h1, h2, h3⟩ | ⟨q, h1, h2, h3, _⟩ | ⟨q, h1, h2, h3, _⟩
  · subst h1 h2 h3
    exact ⟨h, fun m hm => ⟨hlive m hm, by intro q hq; cases hq⟩⟩
  · subst h1 h2 h3
    exact ⟨⟨low_merged h.1 (h.2 q rfl), by intro q hq; cases hq⟩, fun m hm => ⟨hlive m hm, by intro q hq; cases hq⟩⟩
  · subst h1 h2 h3
    refine ⟨⟨h.1, ?_⟩, fun m hm => ⟨hlive m hm, ?_⟩⟩
    · intro q' hq'; cases hq'; exact h.2 q rfl
    · intro q' hq'; cases hq'; exact (hc m (by rw [← u.nT]; exact hm)).2 q rfl

/-- Every stored tree fits the size estimate, or has at most `C` edges. -/
def Small (P : MPar) (n C : Nat) (es : List (Option (List Edge))) : Prop :=
  ∀ E, some E ∈ es → E.length ≤ C ∨
    (lBits (P.k * P.k) (below P.k (P.H n) E) (P.H n)).length ≤ US.geo (P.k * P.k) (P.H n + 1) % 2 ^ 32

theorem mem_merged {F : List Edge} {es : List (Option (List Edge))} {m : Nat} {E : List Edge}
    (h : some E ∈ US.merged F es m) : E = US.acc F es (m + 1) ∨ some E ∈ es := by
  unfold US.merged at h
  rw [List.mem_append, List.mem_cons, Option.some.injEq] at h
  rcases h with h | h | h
  · have := (List.mem_replicate.1 h).2; cases this
  · exact Or.inl h
  · exact Or.inr (List.mem_of_mem_drop h)

theorem acc_of_work {k h : Nat} (hh : 1 ≤ h) {F : List Edge} {es : List (Option (List Edge))} :
    ∀ i, US.work k h F es i = 0 → US.acc F es i = F := by
  intro i
  induction i with
  | zero => intro _; rfl
  | succ i ih =>
    intro h0
    simp only [US.work] at h0
    simp only [US.acc]
    split at h0
    · have := US.cnt_pos (b := k * k) (U := below k h (US.acc F es (i + 1))) hh
      omega
    · exact ih h0

theorem Stepped.small {P : MPar} {n C : Nat} {d d' : DKM} {es es' : List (Option (List Edge))} {p p' : Option Pd}
    (u : Stepped P n d es p d' es' p') (h : Small P n C es) : Small P n C es' := by
  rcases u.how with ⟨_, _, h3⟩ | ⟨q, h1, h2, h3, h4⟩ | ⟨q, h1, h2, h3, _⟩
  · rw [h3]; exact h
  · rw [h3]
    intro E hE
    rcases mem_merged hE with rfl | hE
    · exact Or.inr h4.2
    · exact h E hE
  · rw [h3]; exact h

/-- `add_edge` returns when unions merge at most `k²` trees. -/
theorem MInv.addEdge_ok_any {P : MPar} (hT : P.S.Top) {n N L : Nat} (hc : Ctx P n 0) (hnear : Near P.S n)
    (hL : L ≤ P.k * P.k) (hB : Below P.S n N L) {d : DKM} {es : List (Option (List Edge))} {p : Option Pd}
    (h : MInv P n d es p) (hlow : Low L es p) (hcap : Cap P n d p) (hN : d.nTotal + 1 ≤ N)
    (hu : P.k * P.k ∣ 2 ^ 32 ∨ Ctx P n (d.nTotal + 1)) {e : Edge} (he : InRange n e) :
    (d.addEdge P e = .ub ∧ ¬ Ctx P n (d.nTotal + 1)) ∨
    ∃ d' es' p', d.addEdge P e = .ok d' ∧ MInv P n d' es' p' ∧ (∀ x, held d' es' p' x ↔ x = e ∨ held d es p x) ∧
      Low L es' p' ∧ Cap P n d' p' ∧
      ∀ C, P.S.maxsz (max n d.nTotal) 0 + 2 ≤ C → Small P n C es → Small P n C es' := by
  rcases h.addEdge_any hT hc hu he with hub | ⟨d1, es1, p1, u, H⟩
  · exact Or.inl hub
  right
  obtain ⟨l1, l2⟩ := u.low hlow hcap
  rcases H with ⟨d', es', p', h1, h2, h3, h4⟩ | ⟨h1, h2, q, h3, h4⟩
  · refine ⟨d', es', p', h1, h2, h3, ?_⟩
    rcases h4 with ⟨_, rfl, rfl, rfl⟩ | ⟨_, a2, ⟨a3, a4, rfl, rfl, _⟩ | ⟨a3, rfl, a4, _, a5, i, a6, a7, a8, a9⟩⟩
    · exact ⟨l1, l2, fun C _ hC => u.small hC⟩
    · refine ⟨l1, fun m hm => ?_, fun C _ hC => u.small hC⟩
      have hm' : max n d.nTotal ≤ m := by rw [a2] at hm; omega
      refine ⟨?_, (l2 m (by rw [u.nT]; exact hm')).2⟩
      rw [a4, List.length_append, List.length_singleton]
      have := hnear (max n d.nTotal) m (le_max_left _ _) hm'
      omega
    · have hnT := u.nT
      have hiL : i < L := by
        rcases hB with hB | hB
        · omega
        · by_contra hcon
          by_cases hL0 : L = 0
          · have hk := hc.hk
            subst hL0
            have := hB (max n N) (le_max_left _ _) (le_refl _)
            -- level 0 is below level 1
            have h9 := selectLevel_ge _ _ _ _ _ _ a7
            have hnv := u.inv.nv
            have hb := hB (max n d.nTotal) (le_max_left _ _) (by omega)
            have hcn := h.cnt
            rw [u.c0] at a3
            omega
          · have h9 := selectLevel_ge _ _ _ _ _ _ a7 (L - 1) (by omega) (by omega)
            have hL1 : L - 1 + 1 = L := by omega
            obtain ⟨f1, f2⟩ := u.inv.st
            rw [hL1, u.inv.nv, hnT, f2, sum_ne] at h9
            have hb := hB (max n d.nTotal) (le_max_left _ _) (by omega)
            have hcn := u.inv.cnt
            simp only [batch, List.length_nil] at hcn
            omega
      refine ⟨⟨?_, ?_⟩, fun m hm => ?_, ?_⟩
      · cases hp : p' with
        | none => rw [(a8 hp).1]; exact low_merged l1.1 hiL
        | some q => rw [(a5 q hp).2]; exact l1.1
      · intro q hq; rw [(a9 q hq).1]; exact hiL
      · have hm' : max n d1.nTotal ≤ m := by rw [a2] at hm; omega
        refine ⟨by rw [a4]; simp, ?_⟩
        intro q hq
        rw [(a5 q hq).1, List.length_append, List.length_singleton]
        have := (l2 m hm').1
        omega
      · intro C hC hs
        have hs1 := u.small hs
        cases hp : p' with
        | some q => rw [(a5 q hp).2]; exact hs1
        | none =>
          rw [(a8 hp).1]
          intro E hE
          rcases mem_merged hE with rfl | hE
          · have hfit := (a8 hp).2.2
            rw [u.inv.nv] at hfit
            rcases hfit with hfit | hfit
            · exact Or.inr hfit.2
            · left
              rw [acc_of_work hc.hh _ hfit, List.length_append, List.length_singleton]
              have := (l2 _ (le_refl _)).1
              rw [hnT] at this
              omega
          · exact hs1 E hE
  · subst h3
    exfalso
    have hst : Stuck P n d es p e d1 es1 q := ⟨u, h1, h2⟩
    have := hst.occ h hcap
    have := l1.occ (q.m + 1)
    omega

/-- Every history returns, holding every inserted edge, when unions merge at most `k²` trees; or — only if the size estimate
can be too small for it — is undefined. -/
theorem run_returns_any {P : MPar} (hT : P.S.Top) {n N L : Nat} (hc : Ctx P n 0) (hnear : Near P.S n)
    (hL : L ≤ P.k * P.k) (hB : Below P.S n N L) {ops : List Op} (hr : OpsInRange n ops)
    (hN : (added ops).length ≤ N) (hu : P.k * P.k ∣ 2 ^ 32 ∨ Ctx P n (added ops).length) :
    (run P n ops = .ub ∧ ¬ Ctx P n (added ops).length) ∨
    ∃ d es p, run P n ops = .ok d ∧ Track P n (added ops) d es p ∧ (∀ x ∈ added ops, held d es p x) ∧
      Low L es p ∧ Cap P n d p ∧
      ∀ C, (∀ m, m ≤ (added ops).length → P.S.maxsz (max n m) 0 + 2 ≤ C) → Small P n C es := by
  induction ops using List.reverseRecOn with
  | nil =>
    refine Or.inr ⟨_, _, _, run_nil P hc.two, track_init P n, by simp [added], (low_init P n L).1, (low_init P n L).2, ?_⟩
    intro C _ E hE
    have := (List.mem_replicate.1 hE).2; cases this
  | append_singleton ops o ih =>
    have hr' : OpsInRange n ops := fun o ho => hr o (by simp [ho])
    have hlen := added_append ops [o]
    have hN' : (added ops).length ≤ N := by rw [hlen, List.length_append] at hN; omega
    have hmono : Ctx P n (added (ops ++ [o])).length → Ctx P n (added ops).length :=
      fun h => h.mono (by rw [hlen, List.length_append]; omega)
    rcases ih hr' hN' (hu.imp id hmono) with ⟨h1, h2⟩ | ⟨d, es, p, h1, t, hh, hl, hcap, hsm⟩
    · exact Or.inl ⟨by rw [run_snoc, h1]; rfl, fun h => h2 (hmono h)⟩
    cases o with
    | del e =>
      refine Or.inr ⟨d, es, p, by rw [run_snoc, h1]; rfl, ?_⟩
      rw [hlen]; simp only [added, List.append_nil]; exact ⟨t, hh, hl, hcap, hsm⟩
    | add e =>
      have he : InRange n e := hr (.add e) (by simp)
      have hlen' : (added (ops ++ [Op.add e])).length = (added ops).length + 1 := by rw [hlen]; simp [added]
      have hhi := t.hi
      rw [hlen'] at hu hN
      have hmono2 : Ctx P n ((added ops).length + 1) → Ctx P n (d.nTotal + 1) := fun h => h.mono (by omega)
      rcases t.inv.addEdge_ok_any hT hc hnear hL hB hl hcap (by omega) (hu.imp id hmono2) he with
        ⟨a1, a2⟩ | ⟨d', es', p', a1, a2, a3, a4, a5, a6⟩
      · left
        rw [hlen']
        exact ⟨by rw [run_snoc, h1]; exact a1, fun h => a2 (hmono2 h)⟩
      right
      have hh' : ∀ x ∈ added ops ++ [e], held d' es' p' x := by
        intro x hx
        rw [a3]
        rcases List.mem_append.1 hx with h3 | h3
        · exact Or.inr (hh x h3)
        · exact Or.inl (List.mem_singleton.1 h3)
      rcases t.addEdge_any hT hc hu he with ⟨h3, _⟩ | ⟨_, h3, _⟩ | ⟨d2, es2, p2, h2, h3⟩
      · rw [h3] at a1; cases a1
      · rw [h3] at a1; cases a1
      · rw [h2] at a1; cases a1
        rw [hlen]
        simp only [added]
        refine ⟨_, es', p', by rw [run_snoc, h1]; exact h2, ⟨a2, ?_, fun _ => hh', h3.lo, h3.hi, h3.tmp, fun _ => a5⟩, hh', a4, a5, ?_⟩
        · intro x hx
          rw [List.mem_append, List.mem_singleton]
          rcases (a3 x).1 hx with h4 | h4
          · exact Or.inr h4
          · exact Or.inl (t.sound x h4)
        · intro C hC
          rw [List.length_append, List.length_singleton] at hC
          exact a6 C (hC _ (by omega)) (hsm C (fun m hm => hC m (by omega)))

/-- Every history returns when unions merge at most `k²` trees and the size estimate is large enough. -/
theorem run_returns {P : MPar} (hT : P.S.Top) {n N L : Nat} (hc : Ctx P n N) (hnear : Near P.S n)
    (hL : L ≤ P.k * P.k) (hB : Below P.S n N L) {ops : List Op} (hr : OpsInRange n ops)
    (hN : (added ops).length ≤ N) :
    ∃ d es p, run P n ops = .ok d ∧ Track P n (added ops) d es p ∧ (∀ x ∈ added ops, held d es p x) ∧
      Low L es p ∧ Cap P n d p := by
  rcases run_returns_any hT hc.zero hnear hL hB hr hN (Or.inr (hc.mono hN)) with ⟨_, h⟩ | ⟨d, es, p, h1, h2, h3, h4, h5, _⟩
  · exact absurd (hc.mono hN) h
  · exact ⟨d, es, p, h1, h2, h3, h4, h5⟩

end DKM
end DK2
