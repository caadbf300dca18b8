import Verif.DelayFam
import Verif.PropsDelay
/-!
# Copies of a `DKtree_delay` and several `DKtree_delay` graphs (C78, C79)
-/

namespace DK2
variable {K : K2Impl}

/-! ## Programs with two graphs -/

/-- Two `DKtree_delay` objects, named `false` and `true`, and the heap. -/
structure DWorld (K : K2Impl) where
  heap : Heap K
  obj : Bool → HD

namespace DWorld

/-- A call on one of the objects. -/
def step (nd : Bool) (S : Sizing) (w : DWorld K) (c : Bool × Op) : Res (DWorld K) := do
  let r ← HD.step nd S w.heap (w.obj c.1) c.2
  .ok ⟨r.1, Function.update w.obj c.1 r.2⟩

/-- A sequence of calls. -/
def runFrom (nd : Bool) (S : Sizing) : DWorld K → List (Bool × Op) → Res (DWorld K)
  | w, [] => .ok w
  | w, c :: cs => do
    let w' ← w.step nd S c
    runFrom nd S w' cs

/-- Two graphs built by `DKtree_delay(n false)` and `DKtree_delay(n true)` (DKtree_delay.hpp:67-76). -/
def create (K : K2Impl) (S : Sizing) (n : Bool → Nat) : Res (DWorld K) := do
  let a ← HD.create S (n false)
  let b ← HD.create S (n true)
  .ok ⟨[], fun x => if x then b else a⟩

/-- Two graphs built separately, then calls on both. -/
def run (nd : Bool) (K : K2Impl) (S : Sizing) (n : Bool → Nat) (cs : List (Bool × Op)) : Res (DWorld K) := do
  let w ← create K S n
  runFrom nd S w cs

/-- The program `DKtree_delay b(a)`: the implicit copy constructor copies the members (DKtree_delay.hpp:51-63, 90-93),
so the pointers are shared; `false` is the original. -/
def copy (r : Heap K × HD) : DWorld K := ⟨r.1, fun _ => r.2⟩

/-- `contains` of one object. -/
def contains (w : DWorld K) (x : Bool) (e : Edge) : Res Bool := HD.contains w.heap (w.obj x) e

/-- `list_neighbour` of one object. -/
def listNeighbour (w : DWorld K) (x : Bool) (v : Nat) : Res (List Nat) := HD.listNeighbour w.heap (w.obj x) v

/-- `get_number_edges` of one object. -/
def numberEdges (w : DWorld K) (x : Bool) : Nat := (w.obj x).g.nTotal

/-- Object `x` answers every query as the graph `d` does. -/
def Like (w : DWorld K) (x : Bool) (d : DKD K) : Prop :=
  (∀ e, w.contains x e = d.contains e) ∧ (∀ v, w.listNeighbour x v = d.listNeighbour v) ∧
    w.numberEdges x = d.numberEdges

end DWorld

namespace DWorld
open HG

/-- The objects own disjoint sets of trees. -/
structure Apart (w : DWorld K) : Prop where
  own : ∀ x, Own w.heap (w.obj x).ptrs
  disj : ∀ a, some a ∈ (w.obj false).ptrs → some a ∈ (w.obj true).ptrs → False

theorem Apart.disj' {w : DWorld K} (h : w.Apart) {x y : Bool} (hxy : x ≠ y) {a : Nat} (hx : some a ∈ (w.obj x).ptrs) :
    some a ∉ (w.obj y).ptrs := by
  intro hy
  cases x <;> cases y
  · exact hxy rfl
  · exact h.disj a hx hy
  · exact h.disj a hy hx
  · exact hxy rfl

theorem like_view {w : DWorld K} {x : Bool} (h : Own w.heap (w.obj x).ptrs) : w.Like x (HD.view w.heap (w.obj x)) :=
  ⟨fun e => contains_eq h.tail e, fun v => listNeighbour_eq h.tail v, rfl⟩

theorem view_congr {h h' : Heap K} {o : HD} (hs : ∀ a, some a ∈ o.ptrs → h'[a]? = h[a]?) : HD.view h' o = HD.view h o := by
  unfold HD.view HG.view
  rw [vw_congr (fun a ha => hs a (List.mem_cons_of_mem _ ha))]
  cases ht : o.tmp with
  | none => rfl
  | some a =>
    have := hs a (by simp [HD.ptrs, ht])
    simp [this]

/-- One call: the object changes as the value does, the other object does not change. -/
theorem step_rel (nd : Bool) (S : Sizing) {w : DWorld K} (h : w.Apart) (c : Bool × Op) :
    Res.Rel (fun (w' : DWorld K) d => w'.Apart ∧ d = HD.view w'.heap (w'.obj c.1) ∧
        ∀ y, y ≠ c.1 → HD.view w'.heap (w'.obj y) = HD.view w.heap (w.obj y))
      (w.step nd S c) ((HD.view w.heap (w.obj c.1)).step nd S c.2) := by
  unfold step
  have hb : (HD.view w.heap (w.obj c.1)).step nd S c.2 =
      ((HD.view w.heap (w.obj c.1)).step nd S c.2 >>= fun g => .ok g) := by
    cases (HD.view w.heap (w.obj c.1)).step nd S c.2 <;> rfl
  rw [hb]
  refine Res.Rel.bind (HD.step_rel nd S (h.own c.1) c.2) ?_
  rintro ⟨h', o'⟩ g ⟨a1, a2, a3, a4⟩
  simp only at a1 a2 a3 a4
  have hsame : ∀ y, y ≠ c.1 → ∀ a, some a ∈ (w.obj y).ptrs → h'[a]? = w.heap[a]? := fun y hy a ha =>
    a3.same a ((h.own y).lt a ha) (h.disj' hy ha)
  refine .ok ⟨⟨?_, ?_⟩, ?_, ?_⟩
  · intro x
    by_cases hx : x = c.1
    · rw [hx]; simpa using a2
    · simp only [Function.update_of_ne hx]
      exact (h.own x).len a3.len
  · have key : ∀ y, y ≠ c.1 → ∀ a, some a ∈ o'.ptrs → some a ∉ (w.obj y).ptrs := by
      intro y hy a ha hm
      rcases a4 a ha with hx | hx
      · exact h.disj' hy hm hx
      · have := (h.own y).lt a hm; omega
    intro a h1 h2
    rcases c with ⟨x, op⟩
    cases x with
    | false =>
      simp only [Function.update_self, ne_eq, Bool.true_eq_false, not_false_eq_true, Function.update_of_ne] at h1 h2
      exact key true (by simp) a h1 h2
    | true =>
      simp only [Function.update_self, ne_eq, Bool.false_eq_true, not_false_eq_true, Function.update_of_ne] at h1 h2
      exact key false (by simp) a h2 h1
  · simpa using a1
  · intro y hy
    simp only [Function.update_of_ne hy]
    exact view_congr (hsame y hy)

/-- Calls on both objects: each evolves alone. -/
theorem runFrom_own (nd : Bool) (S : Sizing) : ∀ (cs : List (Bool × Op)) {w w' : DWorld K}, w.Apart →
    runFrom nd S w cs = .ok w' → w'.Apart ∧
      ∀ x, DKD.runFrom nd S (HD.view w.heap (w.obj x)) (ownOps x cs) = .ok (HD.view w'.heap (w'.obj x)) := by
  intro cs
  induction cs with
  | nil => intro w w' h hr; cases hr; exact ⟨h, fun _ => rfl⟩
  | cons c cs ih =>
    intro w w' h hr
    simp only [runFrom] at hr
    rw [Res.bind_eq_ok] at hr
    obtain ⟨w1, h1, h2⟩ := hr
    have hs := step_rel nd S h c
    rw [h1] at hs
    obtain ⟨g, hg, b1, b2, b3⟩ := hs.ok_left
    obtain ⟨c1, c2⟩ := ih b1 h2
    refine ⟨c1, fun x => ?_⟩
    rw [ownOps_cons]
    by_cases hx : c.1 = x
    · subst hx
      rw [if_pos rfl]
      simp only [DKD.runFrom, hg, Res.ok_bind, b2]
      exact c2 _
    · rw [if_neg hx, ← b3 x (fun he => hx he.symm)]
      exact c2 x

/-- If each object's own calls return, so does the program. -/
theorem runFrom_total (nd : Bool) (S : Sizing) : ∀ (cs : List (Bool × Op)) {w : DWorld K}, w.Apart →
    (∀ x, ∃ g, DKD.runFrom nd S (HD.view w.heap (w.obj x)) (ownOps x cs) = .ok g) →
    ∃ w', runFrom nd S w cs = .ok w' := by
  intro cs
  induction cs with
  | nil => intro w _ _; exact ⟨w, rfl⟩
  | cons c cs ih =>
    intro w h hx
    have hs := step_rel nd S h c
    obtain ⟨g, hg⟩ := hx c.1
    rw [ownOps_cons, if_pos rfl] at hg
    simp only [DKD.runFrom] at hg
    rw [Res.bind_eq_ok] at hg
    obtain ⟨g1, hg1, hg2⟩ := hg
    rw [hg1] at hs
    obtain ⟨w1, hw1, b1, b2, b3⟩ := hs.ok_right
    have : ∃ w', runFrom nd S w1 cs = .ok w' := by
      refine ih b1 fun x => ?_
      by_cases hxc : x = c.1
      · subst hxc; exact ⟨g, by rw [← b2]; exact hg2⟩
      · obtain ⟨g', hg'⟩ := hx x
        rw [ownOps_cons, if_neg (fun he => hxc he.symm)] at hg'
        exact ⟨g', by rw [b3 x hxc]; exact hg'⟩
    obtain ⟨w', hw'⟩ := this
    exact ⟨w', by simp only [runFrom, hw1, Res.ok_bind, hw']⟩

theorem create_view {S : Sizing} {n : Nat} {o : HD} (h : HD.create S n = .ok o) :
    DKD.create K S n = .ok (HD.view [] o) ∧ (∀ a, some a ∉ o.ptrs) := by
  unfold HD.create at h
  rw [Res.bind_eq_ok] at h
  obtain ⟨g, hg, h⟩ := h
  cases h
  obtain ⟨h1, h2⟩ := World.create_view (K := K) hg
  unfold DK.create at h1
  refine ⟨?_, ?_⟩
  · unfold DKD.create
    split at h1
    · cases h1
    · rename_i hn
      rw [if_neg hn]
      injection h1 with h1
      simp only [DKD.init, HD.view, ← h1]
      rfl
  · intro a ha
    rcases List.mem_cons.1 ha with ha | ha
    · cases ha
    · exact h2 a ha

theorem own_nil {h : Heap K} {ps : List (Option Nat)} (hn : ∀ a, some a ∉ ps) : Own h ps := by
  refine ⟨fun a ha => absurd ha (hn a), ?_⟩
  have : ps.filterMap id = [] := by
    rw [List.filterMap_eq_nil_iff]
    intro p hp
    cases p with
    | none => rfl
    | some a => exact absurd hp (hn a)
  rw [this]; exact List.nodup_nil

theorem create_apart {S : Sizing} {n : Bool → Nat} {w : DWorld K} (h : create K S n = .ok w) :
    w.Apart ∧ ∀ x, DKD.create K S (n x) = .ok (HD.view w.heap (w.obj x)) := by
  unfold create at h
  rw [Res.bind_eq_ok] at h
  obtain ⟨a, ha, h⟩ := h
  rw [Res.bind_eq_ok] at h
  obtain ⟨b, hb, h⟩ := h
  cases h
  obtain ⟨a1, a2⟩ := create_view (K := K) ha
  obtain ⟨b1, b2⟩ := create_view (K := K) hb
  refine ⟨⟨fun x => ?_, fun c hc _ => a2 c hc⟩, fun x => ?_⟩
  · cases x
    · exact own_nil a2
    · exact own_nil b2
  · cases x
    · exact a1
    · exact b1

end DWorld

open DWorld HG

/-! ## C79 separately constructed graphs -/

/-- C79: two `DKtree_delay` graphs constructed separately never influence each other: after any interleaved calls each
answers as if its own calls had been made alone, and the program returns normally exactly when each does alone. -/
theorem C79_independent (nd : Bool) (K : K2Impl) (S : Sizing) (n : Bool → Nat) (cs : List (Bool × Op)) :
    (∀ w, DWorld.run nd K S n cs = .ok w → ∀ x, ∃ d, DKD.run nd K S (n x) (ownOps x cs) = .ok d ∧ w.Like x d) ∧
    ((∀ x, ∃ d, DKD.run nd K S (n x) (ownOps x cs) = .ok d) → ∃ w, DWorld.run nd K S n cs = .ok w) := by
  constructor
  · intro w hw x
    unfold DWorld.run at hw
    rw [Res.bind_eq_ok] at hw
    obtain ⟨w0, h0, h1⟩ := hw
    obtain ⟨a1, a2⟩ := DWorld.create_apart h0
    obtain ⟨b1, b2⟩ := DWorld.runFrom_own nd S cs a1 h1
    refine ⟨_, ?_, DWorld.like_view (b1.own x)⟩
    unfold DKD.run
    rw [a2 x, Res.ok_bind]
    exact b2 x
  · intro h
    have hn : ∀ x, n x ≠ 1 := by
      intro x hx
      obtain ⟨g, hg⟩ := h x
      simp [DKD.run, DKD.create, hx] at hg
    obtain ⟨w0, h0⟩ : ∃ w, DWorld.create K S n = .ok w := by
      unfold DWorld.create HD.create HG.create
      rw [if_neg (hn false), if_neg (hn true)]
      exact ⟨_, rfl⟩
    obtain ⟨a1, a2⟩ := DWorld.create_apart h0
    obtain ⟨w, hw⟩ := DWorld.runFrom_total nd S cs a1 (fun x => by
      obtain ⟨g, hg⟩ := h x
      unfold DKD.run at hg
      rw [a2 x, Res.ok_bind] at hg
      exact ⟨g, hg⟩)
    exact ⟨w, by simp only [DWorld.run, h0, Res.ok_bind, hw]⟩

/-- Two graphs, over 3 and 8 vertices, with interleaved insertions (each builds trees) and a deletion: the hypotheses of
`C79_independent` are met, and the deletion on one leaves the edge in the other. -/
example : ∃ w, DWorld.run false refK2 realSizing (fun x => if x then 8 else 3)
      [(false, .add (0, 0)), (true, .add (0, 0)), (false, .add (0, 1)), (true, .add (5, 7)), (false, .add (0, 2)),
       (false, .add (1, 0)), (true, .add (6, 6)), (false, .add (1, 1)), (false, .add (1, 2)), (false, .add (2, 0)),
       (true, .add (7, 0)), (false, .add (2, 1)), (false, .del (0, 0))] = .ok w ∧
    w.contains false (0, 0) = .ok false ∧ w.contains true (0, 0) = .ok true ∧ w.numberEdges false = 7 ∧
    w.numberEdges true = 4 ∧ w.heap ≠ [] := by
  have hx : DK.check (DWorld.run false refK2 hybSizing (fun x => if x then 8 else 3)
      [(false, .add (0, 0)), (true, .add (0, 0)), (false, .add (0, 1)), (true, .add (5, 7)), (false, .add (0, 2)),
       (false, .add (1, 0)), (true, .add (6, 6)), (false, .add (1, 1)), (false, .add (1, 2)), (false, .add (2, 0)),
       (true, .add (7, 0)), (false, .add (2, 1)), (false, .del (0, 0))]) (fun w =>
    decide (w.contains false (0, 0) = .ok false ∧ w.contains true (0, 0) = .ok true ∧ w.numberEdges false = 7 ∧
      w.numberEdges true = 4) && !w.heap.isEmpty) = true := by decide +kernel
  obtain ⟨w, h1, h2⟩ := DK.check_iff.1 hx
  rw [← realSizing_eq_hyb] at h1
  rw [Bool.and_eq_true, decide_eq_true_eq] at h2
  obtain ⟨⟨a, b, c, d⟩, e⟩ := h2
  refine ⟨w, h1, a, b, c, d, ?_⟩
  intro h; rw [h] at e; cases e

/-! ## C78 copies -/

namespace HD

/-- A history of calls on one graph. -/
def runFrom (nd : Bool) (S : Sizing) : Heap K × HD → List Op → Res (Heap K × HD)
  | r, [] => .ok r
  | r, op :: ops => do
    let r' ← step nd S r.1 r.2 op
    runFrom nd S r' ops

/-- A history of calls on a graph built by `DKtree_delay(n)` (DKtree_delay.hpp:67-76), from an empty heap. -/
def run (nd : Bool) (K : K2Impl) (S : Sizing) (n : Nat) (ops : List Op) : Res (Heap K × HD) := do
  let o ← create S n
  runFrom nd S ([], o) ops

theorem runFrom_rel (nd : Bool) (S : Sizing) : ∀ (ops : List Op) {h : Heap K} {o : HD}, Own h o.ptrs →
    Res.Rel (fun (r : Heap K × HD) d => d = view r.1 r.2 ∧ Own r.1 r.2.ptrs) (runFrom nd S (h, o) ops)
      (DKD.runFrom nd S (view h o) ops) := by
  intro ops
  induction ops with
  | nil => intro h o ho; exact .ok ⟨rfl, ho⟩
  | cons op ops ih =>
    intro h o ho
    simp only [runFrom, DKD.runFrom]
    refine Res.Rel.bind (step_rel nd S ho op) ?_
    rintro ⟨h', o'⟩ g ⟨a1, a2, _, _⟩
    simp only at a1 a2
    rw [a1]
    exact ih a2

/-- A graph that is never copied behaves as the value `DKD`. -/
theorem run_rel (nd : Bool) (S : Sizing) (n : Nat) (ops : List Op) :
    Res.Rel (fun (r : Heap K × HD) d => d = view r.1 r.2 ∧ Own r.1 r.2.ptrs) (run nd K S n ops)
      (DKD.run nd K S n ops) := by
  unfold run DKD.run
  by_cases hn : n = 1
  · subst hn
    simp [create, HG.create, DKD.create]
    exact .ub
  · obtain ⟨o, ho⟩ : ∃ o, create S n = .ok o := by
      unfold create HG.create; rw [if_neg hn]; exact ⟨_, rfl⟩
    obtain ⟨h1, h2⟩ := DWorld.create_view (K := K) ho
    rw [h1, ho, Res.ok_bind, Res.ok_bind]
    exact runFrom_rel nd S ops (own_nil h2)

end HD

/-- C78: whatever was done to a graph, a copy of it and the original then evolve independently: after any further calls on
both, `contains` of each answers as if the calls on the other had not been made. -/
def C78_Full : Prop :=
  ∀ (K : K2Impl), K.Lawful → ∀ (nd : Bool) (n : Nat) (ops : List Op) (r : Heap K × HD), OpsInRange n ops →
    HD.run nd K realSizing n ops = .ok r → ∀ (cs : List (Bool × Op)) (w : DWorld K), OpsInRange n (cs.map Prod.snd) →
    DWorld.runFrom nd realSizing (DWorld.copy r) cs = .ok w →
    ∀ x, ∃ d, DKD.run nd K realSizing n (ops ++ ownOps x cs) = .ok d ∧ ∀ e, InRange n e → w.contains x e = d.contains e

/-- Seven edges on three vertices, the copy inserts an eighth: the original contains it, and still counts seven. -/
theorem C78_refuted : ¬ C78_Full := by
  intro hfull
  have hx : DK.check (HD.run false refK2 hybSizing 3 (DK.inserts [(0, 0), (0, 1), (0, 2), (1, 0), (1, 1), (1, 2), (2, 0)]))
      (fun r => DK.check (DWorld.runFrom false hybSizing (DWorld.copy r) [(true, .add (2, 1))]) (fun w =>
        decide (w.contains false (2, 1) = .ok true ∧ w.numberEdges false = 7))) = true := by decide +kernel
  obtain ⟨r, h1, h2⟩ := DK.check_iff.1 hx
  obtain ⟨w, h3, h4⟩ := DK.check_iff.1 h2
  rw [← realSizing_eq_hyb] at h1 h3
  obtain ⟨d, hd, h5⟩ := hfull refK2 refK2_lawful false 3 _ r (by decide) h1 _ w (by decide) h3 false
  have hy : DK.check (DKD.run false refK2 hybSizing 3 (DK.inserts [(0, 0), (0, 1), (0, 2), (1, 0), (1, 1), (1, 2), (2, 0)] ++
      ownOps false [(true, .add (2, 1))])) (fun d => decide (d.contains (2, 1) = .ok false)) = true := by decide +kernel
  obtain ⟨d', hd', h6⟩ := DK.check_iff.1 hy
  rw [← realSizing_eq_hyb, hd] at hd'
  cases hd'
  have h7 := h5 (2, 1) (by decide)
  simp only [decide_eq_true_eq] at h4 h6
  rw [h4.1, h6] at h7
  cases h7

/-- A copy made while the graph holds no tree (everything is still in the buffer) is independent of the original for
every further history on both, deletions included. -/
theorem C78_fresh_partial (nd : Bool) (S : Sizing) {n : Nat} {ops : List Op} {r : Heap K × HD}
    (hr : HD.run nd K S n ops = .ok r) (h0 : ∀ p ∈ r.2.g.ps, p = none) (ht : r.2.tmp = none) {cs : List (Bool × Op)}
    {w : DWorld K} (hw : DWorld.runFrom nd S (DWorld.copy r) cs = .ok w) (x : Bool) :
    ∃ d, DKD.run nd K S n (ops ++ ownOps x cs) = .ok d ∧ w.Like x d := by
  have hrel := HD.run_rel (K := K) nd S n ops
  rw [hr] at hrel
  obtain ⟨d0, hd0, e0, ho⟩ := hrel.ok_left
  have hnone : ∀ a, some a ∉ r.2.ptrs := by
    intro a ha
    rcases List.mem_cons.1 ha with ha | ha
    · rw [ht] at ha; cases ha
    · cases h0 _ ha
  have hap : (DWorld.copy r).Apart := ⟨fun _ => ho, fun a ha _ => hnone a ha⟩
  obtain ⟨b1, b2⟩ := DWorld.runFrom_own nd S cs hap hw
  refine ⟨_, ?_, DWorld.like_view (b1.own x)⟩
  rw [DKD.run_append, hd0, Res.ok_bind, e0]
  exact b2 x

/-- The hypotheses are met: a graph over 3 vertices with two buffered edges is copied, then the copy deletes one of them and
the original grows trees. -/
example : ∃ (r : Heap refK2 × HD) (w : DWorld refK2), HD.run false refK2 realSizing 3 (DK.inserts [(0, 0), (0, 1)]) = .ok r ∧
    (∀ p ∈ r.2.g.ps, p = none) ∧ r.2.tmp = none ∧
    DWorld.runFrom false realSizing (DWorld.copy r) [(true, .add (2, 2)), (true, .del (0, 0)), (false, .add (0, 2)),
      (false, .add (1, 0)), (false, .add (1, 1)), (false, .add (1, 2)), (false, .add (2, 0))] = .ok w ∧
    w.contains false (0, 0) = .ok true ∧ w.contains true (0, 0) = .ok false ∧ w.contains false (2, 2) = .ok false ∧
    w.numberEdges false = 7 ∧ w.numberEdges true = 2 := by
  have hx : DK.check (HD.run false refK2 hybSizing 3 (DK.inserts [(0, 0), (0, 1)])) (fun r =>
      decide ((∀ p ∈ r.2.g.ps, p = none) ∧ r.2.tmp = none) &&
      DK.check (DWorld.runFrom false hybSizing (DWorld.copy r) [(true, .add (2, 2)), (true, .del (0, 0)),
        (false, .add (0, 2)), (false, .add (1, 0)), (false, .add (1, 1)), (false, .add (1, 2)), (false, .add (2, 0))])
        (fun w => decide (w.contains false (0, 0) = .ok true ∧ w.contains true (0, 0) = .ok false ∧
          w.contains false (2, 2) = .ok false ∧ w.numberEdges false = 7 ∧ w.numberEdges true = 2))) = true := by
    decide +kernel
  obtain ⟨r, h1, h2⟩ := DK.check_iff.1 hx
  rw [Bool.and_eq_true, decide_eq_true_eq] at h2
  obtain ⟨⟨a, b⟩, h2⟩ := h2
  obtain ⟨w, h3, h4⟩ := DK.check_iff.1 h2
  rw [← realSizing_eq_hyb] at h1 h3
  rw [decide_eq_true_eq] at h4
  exact ⟨r, w, h1, a, b, h3, h4⟩

/-! ### Any number of copies, insertions -/

/-- Any number of `DKtree_delay` objects that may share trees. -/
structure DFam (K : K2Impl) where
  heap : Heap K
  objs : List HD

/-- Copy object `i` (the copy is the next object), or insert through object `i`. -/
inductive FCmd where
  | copy (i : Nat)
  | add (i : Nat) (e : Edge)
  deriving DecidableEq

namespace DFam

/-- One command; the copy constructor copies every member (DKtree_delay.hpp:51-63, 90-93). -/
def step (nd : Bool) (S : Sizing) (f : DFam K) : FCmd → Res (DFam K)
  | .copy i => do
    let o ← rd f.objs i
    .ok { f with objs := f.objs ++ [o] }
  | .add i e => do
    let o ← rd f.objs i
    let r ← HD.addEdge nd S f.heap o e
    .ok ⟨r.1, f.objs.set i r.2⟩

/-- A program. -/
def runFrom (nd : Bool) (S : Sizing) : DFam K → List FCmd → Res (DFam K)
  | f, [] => .ok f
  | f, c :: cs => do
    let f' ← f.step nd S c
    runFrom nd S f' cs

/-- A program that starts by constructing one graph over `n` vertices. -/
def run (nd : Bool) (K : K2Impl) (S : Sizing) (n : Nat) (cs : List FCmd) : Res (DFam K) := do
  let o ← HD.create S n
  runFrom nd S ⟨[], [o]⟩ cs

end DFam

/-- The specification: for every object, the edges inserted through it or, before it was copied, through its source. -/
def famStep (L : List (List Edge)) : FCmd → List (List Edge)
  | .copy i => L ++ (L[i]?).toList
  | .add i e => L.modify i (fun es => es ++ [e])

/-- The edges of every object after a program. -/
def famEdges (cs : List FCmd) : List (List Edge) := cs.foldl famStep [[]]

/-- Every edge of the program is in range, and every object named exists. -/
def FamOk (n : Nat) : List (List Edge) → List FCmd → Prop
  | _, [] => True
  | L, .copy i :: cs => i < L.length ∧ FamOk n (famStep L (.copy i)) cs
  | L, .add i e :: cs => i < L.length ∧ InRange n e ∧ FamOk n (famStep L (.add i e)) cs

namespace DFam
open HD

/-- The invariant: `L` lists what was inserted through every object. -/
structure Inv (nd : Bool) (n : Nat) (L : List (List Edge)) (f : DFam K) : Prop where
  len : f.objs.length = L.length
  cells : Cells n (fun e => ∃ es ∈ L, e ∈ es) f.heap
  good : ∀ (i : Nat) o, f.objs[i]? = some o → Good n (fun e => ∃ es ∈ L, e ∈ es) f.heap o
  seen : nd = false → ∀ (i : Nat) o es, f.objs[i]? = some o → L[i]? = some es → ∀ e ∈ es, Seen f.heap o e

theorem Inv.step (hK : K.Lawful) {nd : Bool} {S : Sizing} {n : Nat} {L : List (List Edge)} {f : DFam K}
    (h : Inv nd n L f) {c : FCmd} (hc : FamOk n L [c]) :
    f.step nd S c = .throws ∨ (nd = false ∧ f.step nd S c = .abort) ∨
      ∃ f', f.step nd S c = .ok f' ∧ Inv nd n (famStep L c) f' := by
  cases c with
  | copy i =>
    have hi : i < f.objs.length := by rw [h.len]; exact hc.1
    obtain ⟨o, ho⟩ : ∃ o, f.objs[i]? = some o := ⟨_, List.getElem?_eq_getElem hi⟩
    obtain ⟨es, hes⟩ : ∃ es, L[i]? = some es := ⟨_, List.getElem?_eq_getElem hc.1⟩
    right; right
    refine ⟨{ f with objs := f.objs ++ [o] }, by simp only [DFam.step, rd_of ho, Res.ok_bind], ?_⟩
    have hA : ∀ e, (∃ es ∈ L, e ∈ es) → ∃ es ∈ famStep L (.copy i), e ∈ es := fun e ⟨es, h1, h2⟩ =>
      ⟨es, List.mem_append_left _ h1, h2⟩
    have hget : ∀ (j : Nat) p, (f.objs ++ [o])[j]? = some p → f.objs[j]? = some p ∨ (j = f.objs.length ∧ p = o) := by
      intro j p hj
      by_cases hjl : j < f.objs.length
      · rw [List.getElem?_append_left hjl] at hj; exact Or.inl hj
      · rw [List.getElem?_append_right (by omega)] at hj
        have h0 : j - f.objs.length = 0 := by
          by_contra hx
          rw [List.getElem?_eq_none (by simp; omega)] at hj
          cases hj
        rw [h0] at hj
        cases hj
        exact Or.inr ⟨by omega, rfl⟩
    refine ⟨by simp [famStep, hes, h.len], h.cells.mono hA, ?_, ?_⟩
    · intro j p hj
      rcases hget j p hj with hj | ⟨_, rfl⟩
      · exact (h.good j p hj).grow le_rfl hA
      · exact (h.good i p ho).grow le_rfl hA
    · intro hnd j p es' hj hes' e he
      simp only [famStep, hes, Option.toList_some] at hes'
      rcases hget j p hj with hj | ⟨rfl, rfl⟩
      · have hjl : j < L.length := by rw [← h.len]; exact (List.getElem?_eq_some_iff.1 hj).1
        rw [List.getElem?_append_left hjl] at hes'
        exact h.seen hnd j p es' hj hes' e he
      · rw [h.len, List.getElem?_append_right (le_refl _)] at hes'
        simp only [Nat.sub_self, List.getElem?_cons_zero, Option.some.injEq] at hes'
        subst hes'
        exact h.seen hnd i p es ho hes e he
  | add i e =>
    have hi : i < f.objs.length := by rw [h.len]; exact hc.1
    obtain ⟨o, ho⟩ : ∃ o, f.objs[i]? = some o := ⟨_, List.getElem?_eq_getElem hi⟩
    obtain ⟨es, hes⟩ : ∃ es, L[i]? = some es := ⟨_, List.getElem?_eq_getElem hc.1⟩
    have hmod : ∀ (j : Nat) es', (famStep L (.add i e))[j]? = some es' →
        (j = i ∧ es' = es ++ [e]) ∨ (j ≠ i ∧ L[j]? = some es') := by
      intro j es' hj
      simp only [famStep, List.getElem?_modify] at hj
      by_cases hji : i = j
      · subst hji
        rw [hes] at hj
        simp at hj
        exact Or.inl ⟨rfl, hj.symm⟩
      · simp [hji] at hj
        exact Or.inr ⟨fun hx => hji hx.symm, hj⟩
    have hmem : es ++ [e] ∈ famStep L (.add i e) := by
      refine List.mem_of_getElem? (i := i) ?_
      simp [famStep, hes]
    have hA : ∀ x, (∃ es ∈ L, x ∈ es) → ∃ es ∈ famStep L (.add i e), x ∈ es := by
      rintro x ⟨es', h1, h2⟩
      obtain ⟨j, hj⟩ := List.mem_iff_getElem?.1 h1
      by_cases hji : j = i
      · subst hji
        rw [hes] at hj; cases hj
        exact ⟨_, hmem, List.mem_append_left _ h2⟩
      · refine ⟨es', List.mem_of_getElem? (i := j) ?_, h2⟩
        simp [famStep, Ne.symm hji, hj]
    have hc' := h.cells.mono hA
    have hg' := (h.good i o ho).grow le_rfl hA
    simp only [DFam.step, rd_of ho, Res.ok_bind]
    rcases addEdge_keep hK nd S hg' hc' hc.2.1 ⟨_, hmem, by simp⟩ with h1 | ⟨h1, h2⟩ | ⟨h', o', h1, h2, h3⟩
    · left; rw [h1]; rfl
    · right; left; exact ⟨h1, by rw [h2]; rfl⟩
    · right; right
      refine ⟨_, by rw [h1, Res.ok_bind], ?_⟩
      have hget : ∀ (j : Nat) p, (f.objs.set i o')[j]? = some p → (j = i ∧ p = o') ∨ (j ≠ i ∧ f.objs[j]? = some p) := by
        intro j p hj
        by_cases hji : i = j
        · subst hji
          rw [List.getElem?_set_self hi] at hj
          cases hj; exact Or.inl ⟨rfl, rfl⟩
        · rw [List.getElem?_set_ne hji] at hj
          exact Or.inr ⟨fun hx => hji hx.symm, hj⟩
      refine ⟨by simp [famStep, h.len], h2.cells, ?_, ?_⟩
      · intro j p hj
        rcases hget j p hj with ⟨_, rfl⟩ | ⟨_, hj⟩
        · exact h2.good
        · exact (h.good j p hj).grow h2.grow.1 hA
      · intro hnd j p es' hj hes' x hx
        rcases hget j p hj with ⟨rfl, rfl⟩ | ⟨hji, hj⟩
        · rcases hmod j es' hes' with ⟨_, rfl⟩ | ⟨hne, _⟩
          · rcases List.mem_append.1 hx with hx | hx
            · exact h2.keep x (h.seen hnd j o es ho hes x hx)
            · simp only [List.mem_singleton] at hx
              rw [hx]; exact h3 hnd
          · exact absurd rfl hne
        · rcases hmod j es' hes' with ⟨rfl, _⟩ | ⟨_, hes''⟩
          · exact absurd rfl hji
          · rcases h.seen hnd j p es' hj hes'' x hx with h4 | h4
            · exact Or.inl h4
            · exact Or.inr (h2.grow.inCells h4)

theorem Inv.runFrom (hK : K.Lawful) {nd : Bool} {S : Sizing} {n : Nat} : ∀ (cs : List FCmd) {L : List (List Edge)}
    {f : DFam K}, Inv nd n L f → FamOk n L cs →
    f.runFrom nd S cs = .throws ∨ (nd = false ∧ f.runFrom nd S cs = .abort) ∨
      ∃ f', f.runFrom nd S cs = .ok f' ∧ Inv nd n (cs.foldl famStep L) f' := by
  intro cs
  induction cs with
  | nil => intro L f h _; exact Or.inr (Or.inr ⟨f, rfl, h⟩)
  | cons c cs ih =>
    intro L f h hc
    have hsplit : FamOk n L [c] ∧ FamOk n (famStep L c) cs := by
      cases c with
      | copy i => exact ⟨⟨hc.1, trivial⟩, hc.2⟩
      | add i e => exact ⟨⟨hc.1, hc.2.1, trivial⟩, hc.2.2⟩
    simp only [DFam.runFrom]
    rcases h.step hK (S := S) hsplit.1 with h1 | ⟨h1, h2⟩ | ⟨f', h1, h2⟩
    · left; rw [h1]; rfl
    · right; left; exact ⟨h1, by rw [h2]; rfl⟩
    · rw [h1, Res.ok_bind]
      exact ih h2 hsplit.2

theorem init_inv {nd : Bool} {S : Sizing} {n : Nat} {o : HD} (h : HD.create S n = .ok o) :
    Inv nd n [[]] (⟨[], [o]⟩ : DFam K) := by
  unfold HD.create HG.create at h
  split at h
  · cases h
  · cases h
    refine ⟨rfl, fun a t ht => by simp at ht, ?_, ?_⟩
    · intro i p hp
      have : i = 0 := by
        by_contra hx
        rw [List.getElem?_eq_none (by simp; omega)] at hp
        cases hp
      subst this
      cases hp
      have hno : ∀ a, some a ∉ List.replicate RS (none : Option Nat) := fun a ha => by
        have := (List.mem_replicate.1 ha).2; cases this
      refine ⟨⟨by simp, fun a ha => absurd ha (hno a), fun _ => by simp [RS], fun hx => absurd hx (lt_irrefl _), ?_,
        fun _ => Or.inr hno, fun _ => Or.inr ⟨le_refl _, hno⟩⟩, rfl, C0.new_wf S n, rfl, rfl, rfl, by simp⟩
      intro j a hj
      exact absurd (List.mem_of_getElem? hj) (hno a)
    · intro _ i p es _ hes e he
      have : i = 0 := by
        by_contra hx
        rw [List.getElem?_eq_none (by simp; omega)] at hes
        cases hes
      subst this
      cases hes
      cases he

end DFam

/-- Insertions through any number of copies: the program returns, throws or stops at the assertion (never undefined), and
if it returns: with assertions enabled every object contains and lists every edge inserted through it or through its
source before the copy; and no object contains or lists an edge that was not inserted through some object. -/
theorem C78_insert_partial (hK : K.Lawful) (nd : Bool) (S : Sizing) {n : Nat} (hn : n ≠ 1) {cs : List FCmd}
    (hc : FamOk n [[]] cs) :
    DFam.run nd K S n cs = .throws ∨ (nd = false ∧ DFam.run nd K S n cs = .abort) ∨
    ∃ f, DFam.run nd K S n cs = .ok f ∧ f.objs.length = (famEdges cs).length ∧
      ∀ (i : Nat) (es : List Edge), (famEdges cs)[i]? = some es → ∃ o, f.objs[i]? = some o ∧
        (∀ e, InRange n e → ∃ b, HD.contains f.heap o e = .ok b ∧ (nd = false → e ∈ es → b = true) ∧
          (b = true → ∃ es' ∈ famEdges cs, e ∈ es')) ∧
        (∀ x, x < n → ∃ l, HD.listNeighbour f.heap o x = .ok l ∧ ∀ y,
          (nd = false → (x, y) ∈ es → y ∈ l) ∧ (y ∈ l → ∃ es' ∈ famEdges cs, (x, y) ∈ es')) := by
  obtain ⟨o, ho⟩ : ∃ o, HD.create S n = .ok o := by
    unfold HD.create HG.create; rw [if_neg hn]; exact ⟨_, rfl⟩
  unfold DFam.run
  rw [ho, Res.ok_bind]
  rcases (DFam.init_inv (K := K) (nd := nd) ho).runFrom hK (S := S) cs hc with h1 | h1 | ⟨f, h1, h2⟩
  · exact Or.inl h1
  · exact Or.inr (Or.inl h1)
  · refine Or.inr (Or.inr ⟨f, h1, h2.len, ?_⟩)
    intro i es hes
    have hi : i < f.objs.length := by rw [h2.len]; exact (List.getElem?_eq_some_iff.1 hes).1
    obtain ⟨p, hp⟩ : ∃ p, f.objs[i]? = some p := ⟨_, List.getElem?_eq_getElem hi⟩
    have hg := h2.good i p hp
    have hsound : ∀ e, HD.Seen f.heap p e → ∃ es' ∈ famEdges cs, e ∈ es' := by
      rintro e (he | ⟨a, t, _, ht, he⟩)
      · exact (hg.live e he).2
      · exact (h2.cells a t ht).2 e he
    refine ⟨p, hp, ?_, ?_⟩
    · intro e he
      obtain ⟨b, b1, b2⟩ := hg.contains hK h2.cells he
      exact ⟨b, b1, fun hnd hm => b2.2 (h2.seen hnd i p es hp hes e hm), fun hb => hsound e (b2.1 hb)⟩
    · intro x hx
      obtain ⟨l, l1, l2⟩ := hg.listNeighbour hK h2.cells hx
      exact ⟨l, l1, fun y => ⟨fun hnd hm => (l2 y).2 (h2.seen hnd i p es hp hes _ hm), fun hy => hsound _ ((l2 y).1 hy)⟩⟩

/-- A program that meets the hypotheses and returns: a graph that has grown a tree is copied, the copy is copied, and both
copies insert. -/
example : FamOk 3 [[]] ([(0, 0), (0, 1), (0, 2), (1, 0), (1, 1), (1, 2), (2, 0)].map (FCmd.add 0) ++
      [.copy 0, .add 1 (2, 1), .copy 1, .add 2 (2, 2)]) ∧
    ∃ f, DFam.run false refK2 realSizing 3 ([(0, 0), (0, 1), (0, 2), (1, 0), (1, 1), (1, 2), (2, 0)].map (FCmd.add 0) ++
      [.copy 0, .add 1 (2, 1), .copy 1, .add 2 (2, 2)]) = .ok f ∧ f.objs.length = 3 ∧ f.heap ≠ [] := by
  refine ⟨by simp [FamOk, famStep, InRange], ?_⟩
  have hx : DK.check (DFam.run false refK2 hybSizing 3
      ([(0, 0), (0, 1), (0, 2), (1, 0), (1, 1), (1, 2), (2, 0)].map (FCmd.add 0) ++
      [.copy 0, .add 1 (2, 1), .copy 1, .add 2 (2, 2)])) (fun f =>
      decide (f.objs.length = 3) && !f.heap.isEmpty) = true := by decide +kernel
  obtain ⟨f, h1, h2⟩ := DK.check_iff.1 hx
  rw [← realSizing_eq_hyb] at h1
  rw [Bool.and_eq_true, decide_eq_true_eq] at h2
  refine ⟨f, h1, h2.1, ?_⟩
  intro h; rw [h] at h2; cases h2.2

/-- What the sharing leads to: after the copy inserted `(2, 1)`, inserting it through the original is ignored, and the
original counts seven edges while it contains eight. -/
theorem C78_ignored : ∃ (f : DFam refK2) (o : HD), DFam.run false refK2 realSizing 3
      ([(0, 0), (0, 1), (0, 2), (1, 0), (1, 1), (1, 2), (2, 0)].map (FCmd.add 0) ++ [.copy 0, .add 1 (2, 1), .add 0 (2, 1)]) =
      .ok f ∧ f.objs[0]? = some o ∧ o.g.nTotal = 7 ∧
    ∀ e ∈ [(0, 0), (0, 1), (0, 2), (1, 0), (1, 1), (1, 2), (2, 0), (2, 1)], HD.contains f.heap o e = .ok true := by
  have hx : DK.check (DFam.run false refK2 hybSizing 3
      ([(0, 0), (0, 1), (0, 2), (1, 0), (1, 1), (1, 2), (2, 0)].map (FCmd.add 0) ++
        [.copy 0, .add 1 (2, 1), .add 0 (2, 1)])) (fun f => f.objs[0]?.any (fun o => decide (o.g.nTotal = 7 ∧
      ∀ e ∈ [(0, 0), (0, 1), (0, 2), (1, 0), (1, 1), (1, 2), (2, 0), (2, 1)], HD.contains f.heap o e = .ok true))) =
      true := by decide +kernel
  obtain ⟨f, h1, h2⟩ := DK.check_iff.1 hx
  rw [← realSizing_eq_hyb] at h1
  obtain ⟨o, h3, h4⟩ := (Option.any_eq_true _ _).1 h2
  exact ⟨f, o, h1, h3, decide_eq_true_eq.mp h4⟩

end DK2
