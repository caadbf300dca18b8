import Verif.Reorg
/-!
# C110: what reorganisations cost

The trees of `weigh K` remember how many edges were written to make them (PropsWeight).
-/

namespace DK2
namespace DK
open HG (delsOf)

variable {K : K2Impl}

theorem weigh_marksOne (hM : K.MarksOne) : (weigh K).MarksOne := fun n t e h he => hM n t.1 e h he

/-- The edges a deletion wrote into trees: what the trees of the result weigh more than those the reorganisation started
from (`afterErase` is the state at DKtree.hpp:207). -/
def delWork (S : Sizing) (g : DK (weigh K)) (e : Edge) (g' : DK (weigh K)) : Nat :=
  if g.rebuilds S e then weight g'.ks - weight (g.afterErase e).2.ks else 0

/-- The edges all deletions of a history write into trees. -/
def delWorks (S : Sizing) : DK (weigh K) → List Op → List Nat
  | _, [] => []
  | g, o :: os =>
    match g.step S o with
    | .ok g' =>
      (match o with
        | .del e => [delWork S g e g']
        | .add _ => []) ++ delWorks S g' os
    | _ => []

theorem length_le_of_subset {a b : List Edge} (h : a.Nodup) (hs : ∀ e ∈ a, e ∈ b) : a.length ≤ b.length :=
  (h.subperm hs).length_le

theorem mergeAll_weight (hK : K.Lawful) {v : Nat} : ∀ (ks : List (Option (weigh K).T)) (t u : (weigh K).T),
    (weigh K).valid v t → AllValid (weigh K) v ks → mergeAll (weigh K) (some t) ks = .ok (some u) →
    u.2 ≤ t.2 + weight ks + ks.length * (K.edges u.1).length
  | [], t, u, _, _, h => by
    simp [mergeAll] at h; subst h; simp [weight]
  | none :: ks, t, u, hv, hks, h => by
    simp only [mergeAll] at h
    have := mergeAll_weight hK ks t u hv hks.tail h
    unfold weight at *
    simp only [List.map_cons, List.sum_cons, Option.elim_none, List.length_cons, Nat.succ_mul] at *
    omega
  | some a :: ks, t, u, hv, hks, h => by
    simp only [mergeAll] at h
    have hv' := (weigh_lawful hK).union_valid _ _ _ hv hks.head
    have ih := mergeAll_weight hK ks ((weigh K).union t a) u hv' hks.tail h
    obtain ⟨u', m1, m2, m3⟩ := mergeAll_some (weigh_lawful hK) ks _ hv' hks.tail
    rw [m1] at h
    simp only [Res.ok.injEq, Option.some.injEq] at h
    subst h
    have hle : (K.edges (K.union t.1 a.1)).length ≤ (K.edges u'.1).length :=
      length_le_of_subset ((weigh_lawful hK).edges_nodup _ _ hv') (fun e he => (m3 e).2 (Or.inl he))
    unfold weight at *
    simp only [List.map_cons, List.sum_cons, Option.elim_some, List.length_cons, Nat.succ_mul] at *
    omega

theorem weight_set_le {i : Nat} (o : Option (weigh K).T) :
    weight ((List.replicate RS none).set i o) ≤ o.elim 0 (·.2) := by
  have hz : weight (List.replicate RS (none : Option (weigh K).T)) = 0 := by simp [weight]
  by_cases hi : i < RS
  · cases o with
    | none => rw [show (List.replicate RS (none : Option (weigh K).T)).set i none = List.replicate RS none by
        apply List.ext_getElem <;> simp [List.getElem_set]]; rw [hz]; exact Nat.zero_le _
    | some t =>
      rw [weight_set (by simp [hi]), hz]; simp
  · rw [List.set_eq_of_length_le (by simp; omega), hz]; exact Nat.zero_le _

theorem rebuild_weight (hK : K.Lawful) (hF : K.ForcedPure) {S : Sizing} {g g' : DK (weigh K)} (h : g.Inv)
    (h2 : 2 ≤ g.nv) (hc : g.edgesOf.length ≤ g.nTotal) (hr : g.rebuild S = .ok g') :
    weight g'.ks ≤ weight g.ks + 9 * (g'.nTotal + 1) := by
  obtain ⟨i, _, h1 | ⟨l, t, b1, b2, b3, b4, b5⟩⟩ := rebuild_trees (weigh_lawful hK) (weigh_forcedPure hF) h h2 hr
  · rw [h1]
    exact (weight_set_le none).trans (by simp)
  · obtain ⟨a1, a2, a3, a4, a5, a6⟩ := h.rebuild (weigh_lawful hK) (weigh_forcedPure hF) S h2 hr
    have hbv := (weigh_lawful hK).build_valid _ _ b1 b2
    have hw := mergeAll_weight hK g.ks _ _ hbv h.val b4
    obtain ⟨t', m1, m2, m3⟩ := mergeAll_some (weigh_lawful hK) g.ks _ hbv h.val
    rw [m1] at b4
    simp only [Res.ok.injEq, Option.some.injEq] at b4
    subst b4
    have hbe := (weigh_lawful hK).build_edges _ _ b1 b2
    have hsub : ∀ e ∈ K.edges t'.1, e ∈ (1, 1) :: g'.edgesOf := by
      intro e he
      have h0 : e = (1, 1) ∨ e ∈ g.edgesOf := by
        rcases (m3 e).1 he with hh | hh
        · exact b3 e ((hbe e).1 hh)
        · exact Or.inr (List.mem_append_right _ hh)
      by_cases h11 : e = (1, 1)
      · simp [h11]
      · exact List.mem_cons_of_mem _ ((a3 e).2 ⟨h0.resolve_left h11, h11⟩)
    have hlen := length_le_of_subset ((weigh_lawful hK).edges_nodup _ _ m2) hsub
    have hcnt : g'.edgesOf.length ≤ g'.nTotal := by
      have h1 : g'.edgesOf.length ≤ g.edgesOf.length :=
        length_le_of_subset a1.nodup (fun e he => ((a3 e).1 he).1)
      rw [a4]; omega
    have hbl : (K.edges (K.build l g.nv)).length ≤ (K.edges t'.1).length :=
      length_le_of_subset ((weigh_lawful hK).edges_nodup _ _ hbv) (fun e he => (m3 e).2 (Or.inl he))
    have hks : g.ks.length = 8 := h.len
    rw [hks] at hw
    rw [b5]
    refine (weight_set_le _).trans ?_
    simp only [Option.elim_some]
    show t'.2 ≤ _
    have hw' : t'.2 ≤ (K.edges (K.build l g.nv)).length + weight g.ks + 8 * (K.edges t'.1).length := hw
    rw [List.length_cons] at hlen
    have hlen' : (K.edges t'.1).length ≤ g'.edgesOf.length + 1 := hlen
    omega

/-- One deletion writes at most nine edges for each edge of the graph it leaves, and none if it does not reorganise. -/
theorem delEdge_work (hK : K.Lawful) (hF : K.ForcedPure) {S : Sizing} {g g' : DK (weigh K)} (h : g.Inv)
    (hc : g.edgesOf.length ≤ g.nTotal) (h2 : 2 ≤ g.nv) {e : Edge} (he : InRange g.nv e) (hr : g.delEdge S e = .ok g') :
    delWork S g e g' ≤ if g.rebuilds S e then 9 * (g'.nTotal + 1) else 0 := by
  unfold delWork
  split
  · rename_i hq
    obtain ⟨c', b1, b2, b3, b4, b5, b6⟩ := h.c0wf.erase_ok e
    unfold DK.delEdge at hr
    unfold DK.rebuilds at hq
    rw [b1] at hr hq
    by_cases hl : e ∈ g.c0.live
    · simp only [hl, decide_true] at hq; cases hq
    simp only [Res.ok_bind, hl, decide_false, Bool.false_eq_true, if_false] at hr hq
    rw [if_pos hq] at hr
    have hc' : c' = g.c0 := by
      have : g.c0.edgeLst e = none := by
        unfold C0.erase at b1
        cases h' : g.c0.edgeLst e with
        | none => rfl
        | some i =>
          rw [h'] at b1
          simp only [hl, decide_false, Res.bind_eq_ok] at b1
          obtain ⟨_, _, _, _, h2⟩ := b1
          simp at h2
      unfold C0.erase at b1
      rw [this] at b1
      simp only [Res.ok.injEq, Prod.mk.injEq] at b1
      exact b1.2.symm
    subst hc'
    obtain ⟨c1, c2, c3, c4, _⟩ := h.afterErase (weigh_lawful hK) he hl
    have hcnt : (g.afterErase e).2.edgesOf.length ≤ (g.afterErase e).2.nTotal := by
      rw [c4]
      split
      · rename_i hm
        have hnd : (e :: (g.afterErase e).2.edgesOf).Nodup :=
          List.nodup_cons.2 ⟨fun hh => ((c3 e).1 hh).2 rfl, c1.nodup⟩
        have := length_le_of_subset (b := g.edgesOf) hnd (fun e' he' => by
          rcases List.mem_cons.1 he' with rfl | hh
          · exact hm
          · exact ((c3 e').1 hh).1)
        rw [List.length_cons] at this
        unfold decr; rw [if_neg (by omega)]; omega
      · exact (length_le_of_subset c1.nodup (fun e' he' => ((c3 e').1 he').1)).trans hc
    have := rebuild_weight hK hF c1 (by rw [c2]; exact h2) hcnt hr
    have e1 : ({ g with c0 := g.c0 } : DK (weigh K)) = g := rfl
    omega
  · exact Nat.zero_le _

theorem delWorks_le (hK : K.Lawful) (hF : K.ForcedPure) {S : Sizing} :
    ∀ (ops : List Op) {g : DK (weigh K)} {G : Edge → Prop}, Track g G → 2 ≤ g.nv → OpsInRange g.nv ops →
      (delWorks S g ops).sum ≤ 9 * ((reorgs S g ops).sum + (delsOf ops).length)
  | [], _, _, _, _, _ => by simp [delWorks]
  | o :: os, g, G, ht, h2, hr => by
    have ho : InRange g.nv o.edge := hr o (by simp)
    have hos : OpsInRange g.nv os := fun p hp => hr p (List.mem_cons_of_mem _ hp)
    cases hstep : g.step S o with
    | ok g' =>
      obtain ⟨ht', hnv⟩ := ht.step (weigh_lawful hK) (weigh_forcedPure hF) S ho h2 hstep
      have ih := delWorks_le hK hF (S := S) os ht' (by rw [hnv]; exact h2) (by rw [hnv]; exact hos)
      cases o with
      | add e =>
        simp only [reorgs, delWorks, hstep, List.nil_append]
        exact ih
      | del e =>
        have e1 : (delsOf (Op.del e :: os)).length = (delsOf os).length + 1 := rfl
        have hw := delEdge_work (e := e) hK hF ht.inv ht.cnt h2 ho hstep
        simp only [reorgs, delWorks, hstep, e1, List.cons_append, List.nil_append, List.sum_cons]
        cases hq : g.rebuilds S e with
        | false =>
          rw [hq] at hw
          simp only [Bool.false_eq_true, if_false, List.nil_append] at hw ⊢
          omega
        | true =>
          rw [hq] at hw
          simp only [if_true, List.cons_append, List.nil_append, List.sum_cons] at hw ⊢
          have e2 : g'.numberEdges = g'.nTotal := rfl
          omega
    | throws => simp [delWorks, hstep]
    | ub => simp [delWorks, hstep]
    | abort => simp [delWorks, hstep]
    | diverge => simp [delWorks, hstep]

theorem delWorks_create (hK : K.Lawful) (hF : K.ForcedPure) {S : Sizing} {n : Nat} {ops : List Op} {g : DK (weigh K)}
    (ho : OpsInRange n ops) (hc : create (weigh K) S n = .ok g) :
    (delWorks S g ops).sum ≤ 9 * ((reorgs S g ops).sum + (delsOf ops).length) := by
  unfold create at hc
  split at hc
  · cases hc
  rename_i hn
  simp only [Res.ok.injEq] at hc
  subst hc
  cases ops with
  | nil => simp [delWorks]
  | cons o os =>
    have hn2 : 2 ≤ n := by
      have := (ho o (by simp)).1
      omega
    have ht : Track (K := weigh K) (init (weigh K) S n) (fun _ => False) := by
      refine ⟨init_inv S n, ?_, ?_, ?_⟩
      · intro e _; simp [init_edges]
      · intro h; simp [init_edges] at h
      · simp [init_edges]
    exact delWorks_le hK hF (o :: os) ht hn2 ho

end DK

open DK
open HG (delsOf)

/-- C110: over any history, the deletions write together at most `12 * log2 (log2 |ops|) + 27` edges into trees for each
deletion. -/
theorem C110_work {K : K2Impl} (hK : K.Lawful) (hF : K.ForcedPure) (hM : K.MarksOne) {n : Nat} {ops : List Op}
    {g : DK (weigh K)} (ho : OpsInRange n ops) (hc : create (weigh K) realSizing n = .ok g) :
    ((delWorks realSizing g ops).sum : ℝ) ≤
      (12 * Real.logb 2 (Real.logb 2 (max 4 ops.length : Nat)) + 27) * (delsOf ops).length := by
  have h1 : ((delWorks realSizing g ops).sum : ℝ) ≤ 9 * ((reorgs realSizing g ops).sum + (delsOf ops).length) := by
    exact_mod_cast delWorks_create hK hF ho hc
  have h2 := C110_reorganisations (weigh_lawful hK) (weigh_forcedPure hF) (weigh_marksOne hM) ho hc
  linarith

/-- The same with the rule decided by any accurate floating-point library. -/
theorem C110_work_float {K : K2Impl} (hK : K.Lawful) (hF : K.ForcedPure) (hM : K.MarksOne) {A : FloatLib}
    (hA : A.Accurate) {n : Nat} {ops : List Op} {g : DK (weigh K)} (hl : ops.length < 2 ^ 52) (ho : OpsInRange n ops)
    (hc : create (weigh K) (floatSizing A) n = .ok g) :
    ((delWorks (floatSizing A) g ops).sum : ℝ) ≤
      (243 / 20 * Real.logb 2 (Real.logb 2 (max 4 ops.length : Nat)) + 27) * (delsOf ops).length := by
  have h1 : ((delWorks (floatSizing A) g ops).sum : ℝ) ≤
      9 * ((reorgs (floatSizing A) g ops).sum + (delsOf ops).length) := by
    exact_mod_cast delWorks_create hK hF ho hc
  have h2 := C110_reorganisations_float (weigh_lawful hK) (weigh_forcedPure hF) (weigh_marksOne hM) hA hl ho hc
  linarith

/-- Instance: the first deletion of this history writes nothing; the second reorganises the graph, and writes three edges. -/
example : delWorks tabSizing (init (weigh refK2) tabSizing 3) wDrift = [0, 3] := by decide

end DK2
