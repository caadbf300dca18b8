import Verif.Cluster
import Verif.PropsAliasDelay
/-!
# C95: an `Algorithm` works on its own copy of the graph

`Algorithm` has a member `Graph g` (Algorithm.hpp:18), which its constructor and `set_graph` copy from the argument
(Algorithm.hpp:21-25) with the implicit copy operations of the graph class: the copy has its own buffer and counters and
shares the trees. In `World.copy`, object `true` is the graph of the user and object `false` the member of the
`Algorithm`; all calls after the construction are made on `true`.
-/

namespace DK2
open DK GraphI HG

variable {K : K2Impl}

/-- What the member functions of the `Algorithm` see (Algorithm.hpp:18,21; the algorithms only call const queries, loops and
counters of `g`). -/
def World.algo (w : World K) : GraphI := (view w.heap (w.obj false)).iface

/-- The user's calls on the graph after the `Algorithm` was made from it. -/
def World.later (S : Sizing) (r : Heap K × HG) (ops : List Op) : Res (World K) :=
  World.runFrom S (World.copy r) (ops.map (fun o => (true, o)))

/-- C95: an `Algorithm` made from a graph answers for the graph as it was then, whatever is done with the graph later. -/
def C95_Full : Prop :=
  ∀ K : K2Impl, K.Lawful → K.ForcedPure → ∀ n es r, 2 ≤ n → n ≤ 9999999 → (∀ e ∈ es, InRange n e) →
    HG.run K realSizing n (inserts es) = .ok r → ∀ ops w, OpsInRange n ops → World.later realSizing r ops = .ok w →
    w.algo.Algorithms n (fun e => e ∈ es)

theorem ownOps_others (ops : List Op) : ownOps false (ops.map (fun o => (true, o))) = [] := by
  unfold ownOps
  rw [List.filter_eq_nil_iff.2, List.map_nil]
  intro c hc
  obtain ⟨o, _, rfl⟩ := List.mem_map.1 hc
  simp

theorem ownOps_own (ops : List Op) : ownOps true (ops.map (fun o => (true, o))) = ops := by
  unfold ownOps
  rw [List.filter_eq_self.2 (by intro c hc; obtain ⟨o, _, rfl⟩ := List.mem_map.1 hc; simp), List.map_map]
  exact List.map_id _

/-- C95 if only edges are inserted afterwards, after any history before (deletions included): the `Algorithm` sees
exactly the graph of its construction, in every query, loop and counter; and the graph is what it would have been
without the `Algorithm`. -/
theorem C95_same_partial (hF : K.ForcedPure) (S : Sizing) {n : Nat} {ops : List Op} {r : Heap K × HG}
    (hr : HG.run K S n ops = .ok r) {es : List Edge} {w : World K} (hw : World.later S r (inserts es) = .ok w) :
    (∃ g, DK.run K S n ops = .ok g ∧ w.algo = g.iface) ∧
      ∃ g, DK.run K S n (ops ++ inserts es) = .ok g ∧ w.Like true g := by
  have h0 := HG.run_rel (K := K) S n ops
  rw [hr] at h0
  obtain ⟨g0, hg0, e0, ho⟩ := h0.ok_left
  obtain ⟨k1, k2⟩ := World.runFrom_adds hF S _ _ _ (by
    intro c hc
    obtain ⟨o, h1, rfl⟩ := List.mem_map.1 hc
    obtain ⟨e, _, rfl⟩ := List.mem_map.1 h1
    exact ⟨e, rfl⟩) (fun _ => ho) hw
  refine ⟨⟨g0, hg0, ?_⟩, ?_⟩
  · have := k2 false
    rw [ownOps_others] at this
    simp only [DK.runFrom] at this
    unfold World.algo
    rw [← Res.ok.inj this, e0]
    rfl
  · refine ⟨_, ?_, World.like_view (k1 true)⟩
    rw [DK.run_append, hg0, Res.ok_bind, e0]
    have := k2 true
    rwa [ownOps_own] at this

/-- C95 if only edges are inserted afterwards. -/
theorem C95_insert_partial (hK : K.Lawful) (hF : K.ForcedPure) {n : Nat} (h2 : 2 ≤ n) (hn : n ≤ 9999999) {es es' : List Edge}
    (hes : ∀ e ∈ es, InRange n e) {r : Heap K × HG} (hr : HG.run K realSizing n (inserts es) = .ok r) {w : World K}
    (hw : World.later realSizing r (inserts es') = .ok w) : w.algo.Algorithms n (fun e => e ∈ es) := by
  obtain ⟨⟨g, hg, e0⟩, _⟩ := C95_same_partial hF realSizing hr hw
  obtain ⟨g', h1, h3, hf⟩ := built hK hF h2 hn hes
  have : DK.run K realSizing n (inserts es) = .ok g' := h1
  rw [hg] at this
  cases this
  rw [e0, ← h3]
  exact hf.algorithms

/-- C95 is false with deletions: after one `del_edge` on the graph, a search of the `Algorithm` does not cross the deleted
edge, although its own counter still includes it. -/
theorem C95_refuted : ¬ C95_Full := by
  intro hfull
  have hx : DK.check (HG.run refK2 hybSizing 3 (inserts [(0, 1), (1, 2), (2, 0)])) (fun r =>
      DK.check (World.later hybSizing r [.del (0, 1)]) (fun w =>
        decide (w.algo.bfs 4 0 = .ok [0] ∧ w.algo.nEdges = 3))) = true := by decide +kernel
  obtain ⟨r, h1, h2⟩ := DK.check_iff.1 hx
  obtain ⟨w, h3, h4⟩ := DK.check_iff.1 h2
  rw [← realSizing_eq_hyb] at h1 h3
  have h5 := hfull refK2 refK2_lawful refK2_forcedPure 3 _ r (by norm_num) (by norm_num) (by decide) h1 _ w (by decide) h3
  simp only [decide_eq_true_eq] at h4
  obtain ⟨p, p1, _, _, p2, _⟩ := h5.bfs 0 (by norm_num) 4 (by norm_num)
  rw [h4.1] at p1
  cases p1
  have : Reach (fun e => e ∈ [((0 : Nat), (1 : Nat)), (1, 2), (2, 0)]) 0 1 :=
    Relation.ReflTransGen.single (by decide)
  have := (p2 1).2 this
  simp at this

/-- C95, worse: after one insertion and three deletions, all legal on the graph itself (which keeps one edge and whose own
loops are still right), the loop over the edges inside the `Algorithm` is undefined. -/
theorem C95_undefined : ∃ r w, HG.run refK2 realSizing 3 (inserts [(0, 1), (1, 2), (2, 0)]) = .ok r ∧
    World.later realSizing r [.add (2, 2), .del (0, 1), .del (1, 2), .del (2, 0)] = .ok w ∧
    w.algo.trianglesHash = .ub ∧ (view w.heap (w.obj true)).iface.edges = .ok [(2, 2)] ∧
    (view w.heap (w.obj true)).iface.trianglesHash = .ok 0 := by
  have hx : DK.check (HG.run refK2 hybSizing 3 (inserts [(0, 1), (1, 2), (2, 0)])) (fun r =>
      DK.check (World.later hybSizing r [.add (2, 2), .del (0, 1), .del (1, 2), .del (2, 0)]) (fun w =>
        decide (w.algo.trianglesHash = .ub ∧ (view w.heap (w.obj true)).iface.edges = .ok [(2, 2)] ∧
          (view w.heap (w.obj true)).iface.trianglesHash = .ok 0))) = true := by decide +kernel
  obtain ⟨r, h1, h2⟩ := DK.check_iff.1 hx
  obtain ⟨w, h3, h4⟩ := DK.check_iff.1 h2
  rw [← realSizing_eq_hyb] at h1 h3
  exact ⟨r, w, h1, h3, by simpa using h4⟩

/-- `C95_same_partial` and `C95_insert_partial` on insertions that merge the tree shared with the `Algorithm`. -/
example : ∃ r w, HG.run refK2 realSizing 3 (inserts [(0, 1), (1, 2), (2, 0)]) = .ok r ∧
    World.later realSizing r (inserts [(1, 1), (1, 0), (2, 2), (0, 2), (2, 1)]) = .ok w ∧
    w.algo.edges = .ok [(0, 1), (1, 2), (2, 0)] ∧ w.algo.trianglesHash = .ok 3 ∧ w.contains true (2, 1) = .ok true ∧
    w.numberEdges true = 8 := by
  have hx : DK.check (HG.run refK2 hybSizing 3 (inserts [(0, 1), (1, 2), (2, 0)])) (fun r =>
      DK.check (World.later hybSizing r (inserts [(1, 1), (1, 0), (2, 2), (0, 2), (2, 1)])) (fun w =>
        decide (w.algo.edges = .ok [(0, 1), (1, 2), (2, 0)] ∧ w.algo.trianglesHash = .ok 3 ∧
          w.contains true (2, 1) = .ok true ∧ w.numberEdges true = 8))) = true := by decide +kernel
  obtain ⟨r, h1, h2⟩ := DK.check_iff.1 hx
  obtain ⟨w, h3, h4⟩ := DK.check_iff.1 h2
  rw [← realSizing_eq_hyb] at h1 h3
  exact ⟨r, w, h1, h3, by simpa using h4⟩

/-! ## `DKtree_delay` -/

/-- C95 for `DKtree_delay` fails already for an insertion: the merge it does in place adds the edge to a tree of the
`Algorithm`, whose counter does not include it. -/
theorem C95_delay_refuted : ∃ r w, HD.run false refK2 realSizing 3
      (inserts [(0, 0), (0, 1), (0, 2), (1, 0), (1, 1), (1, 2), (2, 0)]) = .ok r ∧
    DWorld.runFrom false realSizing (DWorld.copy r) [(true, .add (2, 1))] = .ok w ∧
    w.contains false (2, 1) = .ok true ∧ w.numberEdges false = 7 := by
  have hx : DK.check (HD.run false refK2 hybSizing 3 (inserts [(0, 0), (0, 1), (0, 2), (1, 0), (1, 1), (1, 2), (2, 0)]))
      (fun r => DK.check (DWorld.runFrom false hybSizing (DWorld.copy r) [(true, .add (2, 1))]) (fun w =>
        decide (w.contains false (2, 1) = .ok true ∧ w.numberEdges false = 7))) = true := by decide +kernel
  obtain ⟨r, h1, h2⟩ := DK.check_iff.1 hx
  obtain ⟨w, h3, h4⟩ := DK.check_iff.1 h2
  rw [← realSizing_eq_hyb] at h1 h3
  exact ⟨r, w, h1, h3, by simpa using h4⟩

end DK2
