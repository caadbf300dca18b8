import Verif.MunroSer
/-!
# C68 Saving, loading and comparing `DKtree_delay_munro` graphs
-/

namespace DK2
open DK Bits GraphI
namespace DKM

open Classical in
/-- The structural comparison, one possible `k2_tree::equal` (DKtree_delay_.hpp:308). -/
noncomputable def structEq (K : K2Impl) : K2Eq K where
  equal a b := decide (a = b)
  refl a := by simp
  adj_eq a b e h := by rw [of_decide_eq_true h]
  neigh_eq a b x h := by rw [of_decide_eq_true h]

/-- The saved state, with no merge pending. -/
theorem MInv.settled {P : MPar} {n : Nat} {d d' : DKM} {es : List (Option (List Edge))} {p : Option Pd} (h : MInv P n d es p)
    (h1 : d.maxR = d'.maxR) (h2 : d.nv = d'.nv) (h3 : d.nTotal = d'.nTotal) (h4 : d.ks = d'.ks) (h5 : CEq d.c0 d'.c0)
    (h6 : d'.us.finish = true) : MInv P n d' (nowLv d es p) none where
  wf := h5.wf'
  c0nv := by rw [← h5.nv, h.c0nv]
  c0m := h5.m'
  rng := by rw [← h5.live]; exact h.rng
  nv := by rw [← h2, h.nv]
  lv := h.now_lv
  cnt := by
    rw [← h5.live, ← h3]
    have h7 := h.cnt
    have h8 : wt (nowLv d es p) ≤ wt es := by
      cases p with
      | none => exact le_refl _
      | some q => exact wt_rest
    show wt _ + 0 + _ ≤ _
    omega
  st := ⟨h6, by rw [← h4]; exact h.ks_now⟩
  top := ⟨(by rw [← h1]; exact h.now_top), (by intro q hq; cases hq), by rw [← h1]; exact h.top.2.2⟩

/-- C68: saving any reachable graph and loading it into a new object gives a graph with the same answers. -/
def C68_Full : Prop :=
  ∀ (k n N : Nat) (nd : Bool) (ops : List Op) (d : DKM), Ctx (real k nd) n N → OpsInRange n ops →
    (added ops).length ≤ N → run (real k nd) n ops = .ok d →
    ∃ dir d', d.serialize (real k nd) (Dir.empty _) = .ok dir ∧ load (real k nd) blank dir = .ok d' ∧
      d'.numberEdges = d.numberEdges ∧ d'.numberNodes = d.numberNodes ∧
      (∀ e, InRange n e → d'.contains (real k nd) e = d.contains (real k nd) e) ∧
      ∀ x, x < n → d'.listNeighbour (real k nd) x = d.listNeighbour (real k nd) x

/-- C68 with no merge pending (every `k`, both builds): the loaded graph has the same counters, compares equal both ways and
answers `contains` alike; so it stays under any further calls, which have the same outcome on both, and loops over the edges then visit
the same sequence.  Missing: pending merges (`C68_pending_partial`), `list_neighbour` (`C68_neighbour_partial`). -/
theorem C68_idle_partial {k n N : Nat} {nd : Bool} (hc : Cond (real k nd) n N) {ops : List Op} (hr : OpsInRange n ops)
    (hN : (added ops).length ≤ N) {d : DKM} (h : run (real k nd) n ops = .ok d) (hf : d.us.finish = true) :
    ∃ dir d', d.serialize (real k nd) (Dir.empty _) = .ok dir ∧ load (real k nd) blank dir = .ok d' ∧
      (∀ E, d.eq (real k nd) E d' = .ok true ∧ d'.eq (real k nd) E d = .ok true) ∧
      (∀ more, Res.Rel (fun a b => a.numberEdges = b.numberEdges ∧ a.numberNodes = b.numberNodes ∧
          ∀ e, a.contains (real k nd) e = b.contains (real k nd) e)
        (runFrom (real k nd) d more) (runFrom (real k nd) d' more)) ∧
      (n ≤ 9999999 → ∀ more, OpsInRange n more → (added (ops ++ more)).length ≤ N → ∀ a b,
        runFrom (real k nd) d more = .ok a → runFrom (real k nd) d' more = .ok b →
        ∃ l, (a.iface (real k nd)).edges = .ok l ∧ (b.iface (real k nd)).edges = .ok l) := by
  obtain ⟨es, p, t⟩ := run_ok realSizing_top hc hr hN h
  have hT : MT.Tall (real k nd).k (real k nd).H := real_tall nd hc.base.hk
  have htwo := hc.base.two
  obtain ⟨dir, d', a1, a2, a3, a4, a5, a6, a7, a8, _⟩ := saved hT t.inv (structEq _)
  have hs : Sim d d' := ⟨a3, a4, a5, a6, a7, Or.inl ⟨hf, by rw [a8]; rfl⟩⟩
  refine ⟨dir, d', a1, a2, ?_, ?_, ?_⟩
  · intro E
    obtain ⟨dir2, d2, b1, b2, _, _, _, _, _, _, _, b3, b4⟩ := saved hT t.inv E
    rw [a1] at b1; cases b1
    rw [a2] at b2; cases b2
    exact ⟨b3, b4⟩
  · intro more
    exact Res.Rel.mono (fun a b hab => ⟨hab.nT, hab.nv, hab.contains⟩) (hs.runFrom more)
  · intro hn more hm hN2 a b ha hb
    have hab : Sim a b := by
      have := hs.runFrom (P := real k nd) more
      rw [ha, hb] at this
      cases this with | ok h => exact h
    have hrun : run (real k nd) n (ops ++ more) = .ok a := by
      unfold run at h ⊢
      cases hcr : create (real k nd) n with
      | ok x =>
        rw [hcr] at h
        simp only [Res.ok_bind] at h ⊢
        rw [runFrom_append, h]
        exact ha
      | _ => rw [hcr] at h; cases h
    obtain ⟨es2, p2, t2⟩ := run_ok realSizing_top hc (by
      intro o ho
      rcases List.mem_append.1 ho with h1 | h1
      · exact hr o h1
      · exact hm o h1) hN2 hrun
    refine ⟨_, (t2.inv.edgeLoop hT (by omega) hn).2.1, ?_⟩
    rw [((hab.inv t2.inv).edgeLoop hT (by omega) hn).2.1, hab.edgesOf]

/-- C68 in every reachable state: saving and loading succeed; the loaded graph has the counters of the saved one and compares equal to it,
but holds only what the iterators saw: `contains` is true exactly for the edges a loop over the saved graph visits, and a loop over the
loaded graph visits the same sequence. -/
theorem C68_pending_partial {k n N : Nat} {nd : Bool} (hc : Cond (real k nd) n N) (hn : n ≤ 9999999) {ops : List Op}
    (hr : OpsInRange n ops) (hN : (added ops).length ≤ N) {d : DKM} (h : run (real k nd) n ops = .ok d)
    (E : K2Eq (bitK2 (real k nd).k (real k nd).H)) :
    ∃ dir d' l, d.serialize (real k nd) (Dir.empty _) = .ok dir ∧ load (real k nd) blank dir = .ok d' ∧
      d'.numberEdges = d.numberEdges ∧ d'.numberNodes = d.numberNodes ∧
      d.eq (real k nd) E d' = .ok true ∧ d'.eq (real k nd) E d = .ok true ∧
      (d.iface (real k nd)).edges = .ok l ∧ (d'.iface (real k nd)).edges = .ok l ∧ (∀ e ∈ l, Op.add e ∈ ops) ∧
      ∀ e, InRange n e → d'.contains (real k nd) e = .ok (decide (e ∈ l)) := by
  obtain ⟨es, p, t⟩ := run_ok realSizing_top hc hr hN h
  have hT : MT.Tall (real k nd).k (real k nd).H := real_tall nd hc.base.hk
  have htwo := hc.base.two
  obtain ⟨dir, d', a1, a2, a3, a4, a5, a6, a7, a8, _, a10, a11⟩ := saved hT t.inv E
  have hi := t.inv.settled a3 a4 a5 a6 a7 (by rw [a8]; rfl)
  have heq : (d'.view (real k nd)).edgesOf = (d.view (real k nd)).edgesOf := by
    unfold DK.edgesOf view
    simp only [a7.live, a6]
  refine ⟨dir, d', _, a1, a2, a5.symm, a4.symm, a10, a11, (t.inv.edgeLoop hT (by omega) hn).2.1, ?_, ?_, ?_⟩
  · rw [(hi.edgeLoop hT (by omega) hn).2.1, heq]
  · intro e he
    rw [← mem_added]
    refine t.sound e ?_
    rcases ((t.inv.edgeLoop hT (by omega) hn).2.2 e).1 he with h1 | h1
    · exact Or.inl h1
    · exact Or.inr (Or.inr (now_held t.inv h1))
  · intro e he
    obtain ⟨b, b1, b2⟩ := hi.contains hc.base he
    rw [b1, ← heq]
    congr 1
    have : b = true ↔ e ∈ (d'.view (real k nd)).edgesOf := by
      rw [b2, (hi.edgeLoop hT (by omega) hn).2.2]
      unfold seen
      simp [nowLv]
    cases b with
    | true => exact (decide_eq_true (this.1 rfl)).symm
    | false => exact (decide_eq_false (fun hh => Bool.false_ne_true (this.2 hh))).symm

/-- C68, `list_neighbour` with no merge pending: the extra entry of the edge that triggered the last merge is replaced by an extra
neighbour 0 of vertex 0. -/
theorem C68_neighbour_partial {k n N : Nat} {nd : Bool} (hc : Cond (real k nd) n N) {ops : List Op} (hr : OpsInRange n ops)
    (hN : (added ops).length ≤ N) {d : DKM} (h : run (real k nd) n ops = .ok d) (hf : d.us.finish = true) :
    ∃ dir d', d.serialize (real k nd) (Dir.empty _) = .ok dir ∧ load (real k nd) blank dir = .ok d' ∧
      ∀ x, x < n → ∃ l r, d.listNeighbour (real k nd) x = .ok (l ++ (if d.tmpEdge.1 = x then [d.tmpEdge.2] else []) ++ r) ∧
        d'.listNeighbour (real k nd) x = .ok (l ++ (if 0 = x then [0] else []) ++ r) := by
  obtain ⟨es, p, t⟩ := run_ok realSizing_top hc hr hN h
  have hT : MT.Tall (real k nd).k (real k nd).H := real_tall nd hc.base.hk
  obtain ⟨dir, d', a1, a2, _, _, _, a6, a7, a8, a9, _⟩ := saved hT t.inv (structEq _)
  refine ⟨dir, d', a1, a2, fun x _ => ?_⟩
  have hf' : d'.us.finish = true := by rw [a8]; rfl
  unfold listNeighbour
  rw [a7.neigh, a7.wf'.listNeighbours_eq]
  simp only [Res.ok_bind]
  rw [if_pos hf, if_pos hf', a6, a9]
  exact ⟨_, _, rfl, rfl⟩

/-- While the merge started by the 18th insertion is pending, saving loses that insertion; the loaded graph still counts it and compares equal to the
saved one. -/
theorem C68_lost : ∃ d dir d', run (real 2 true) 256 (inserts w18) = .ok d ∧
    d.serialize (real 2 true) (Dir.empty _) = .ok dir ∧ load (real 2 true) blank dir = .ok d' ∧
    (∀ E, d.eq (real 2 true) E d' = .ok true) ∧ d'.numberEdges = 18 ∧
    d.contains (real 2 true) (238, 187) = .ok true ∧ d'.contains (real 2 true) (238, 187) = .ok false := by
  have hc : check (run (P256 true) 256 (inserts w18)) (fun d =>
      decide ((d.iface (P256 true)).nb 238 = .ok [] ∧ d.contains (P256 true) (238, 187) = .ok true ∧ d.nTotal = 18)) = true := by
    decide +kernel
  rw [← real_eq_256] at hc
  obtain ⟨d, h1, h2⟩ := check_iff.1 hc
  obtain ⟨h3, h4, h5⟩ := of_decide_eq_true h2
  have hx : Ctx (real 2 true) 256 18 := real_ctx _ (by norm_num) (by norm_num) (Or.inl (by decide +kernel))
  obtain ⟨dir, d', l, b1, b2, b3, _, _, _, b7, _, _, b10⟩ := C68_pending_partial hx.cond (by norm_num) (ops := inserts w18) (by decide)
    (by decide) h1 (structEq _)
  refine ⟨d, dir, d', h1, b1, b2, ?_, b3.trans h5, h4, ?_⟩
  · intro E
    obtain ⟨dir2, d2, _, c1, c2, _, _, c3, _⟩ := C68_pending_partial hx.cond (by norm_num) (ops := inserts w18) (by decide) (by decide) h1 E
    rw [b1] at c1; cases c1
    rw [b2] at c2; cases c2
    exact c3
  · rw [b10 (238, 187) (by decide)]
    congr 1
    apply decide_eq_false
    intro hm
    obtain ⟨es, p, t⟩ := run_ok realSizing_top hx.cond (ops := inserts w18) (by decide) (by decide) h1
    have hT : MT.Tall (real 2 true).k (real 2 true).H := real_tall true hx.hk
    obtain ⟨l', _, e1, _, e2, _⟩ := t.inv.neighLoop hT (by norm_num) (x := 238) (by norm_num)
    rw [h3] at e1; cases e1
    rw [(t.inv.edgeLoop hT (by norm_num) (by norm_num)).2.1] at b7
    cases b7
    exact absurd ((e2 187).2 hm) (by simp)

theorem C68_refuted : ¬ C68_Full := by
  intro hfull
  obtain ⟨d, dir, d', h1, h2, h3, _, _, h4, h5⟩ := C68_lost
  obtain ⟨dir2, d2, c1, c2, _, _, c3, _⟩ := hfull 2 256 18 true (inserts w18) d
    (real_ctx _ (by norm_num) (by norm_num) (Or.inl (by decide +kernel))) (by decide) (by decide) h1
  rw [h2] at c1; cases c1
  rw [h3] at c2; cases c2
  have := c3 (238, 187) (by decide)
  rw [h4, h5] at this
  cases this

/-- Loading an empty graph into an object with a pending merge: `contains` still answers from the old graph. -/
theorem C68_reload_refuted : ∃ x g dir d', run (real 2 true) 256 (inserts w18) = .ok x ∧ run (real 2 true) 256 [] = .ok g ∧
    g.serialize (real 2 true) (Dir.empty _) = .ok dir ∧ load (real 2 true) x dir = .ok d' ∧ d'.numberEdges = 0 ∧
    d'.contains (real 2 true) (238, 187) = .ok true := by
  rw [real_eq_256]
  have hc : check (run (P256 true) 256 (inserts w18)) (fun x => check (run (P256 true) 256 []) (fun g =>
      check (g.serialize (P256 true) (Dir.empty _)) (fun dir => check (load (P256 true) x dir) (fun d' =>
        decide (d'.nTotal = 0 ∧ d'.contains (P256 true) (238, 187) = .ok true))))) = true := by decide +kernel
  obtain ⟨x, h1, h2⟩ := check_iff.1 hc
  obtain ⟨g, h3, h4⟩ := check_iff.1 h2
  obtain ⟨dir, h5, h6⟩ := check_iff.1 h4
  obtain ⟨d', h7, h8⟩ := check_iff.1 h6
  obtain ⟨h9, h10⟩ := of_decide_eq_true h8
  exact ⟨x, g, dir, d', h1, h3, h5, h7, h9, h10⟩

/-- Non-vacuity: a graph with a finished merge and a non-empty buffer meets the hypotheses of `C68_idle_partial`. -/
example : ∃ d, run (real 2 false) 8 (inserts [(0, 1), (1, 2), (2, 0)]) = .ok d ∧ d.us.finish = true ∧ d.c0.live ≠ [] ∧
    d.ks ≠ List.replicate RS none ∧ Ctx (real 2 false) 8 3 := by
  have hc : check (run (PH false) 8 (inserts [(0, 1), (1, 2), (2, 0)])) (fun d =>
      decide (d.us.finish = true ∧ d.c0.live ≠ [] ∧ d.ks ≠ List.replicate RS none)) = true := by decide +kernel
  rw [← real_eq_hyb] at hc
  obtain ⟨d, h1, h2⟩ := check_iff.1 hc
  obtain ⟨h3, h4, h5⟩ := of_decide_eq_true h2
  exact ⟨d, h1, h3, h4, h5, real_ctx _ (by norm_num) (by norm_num) (Or.inl (by decide +kernel))⟩

end DKM
end DK2
