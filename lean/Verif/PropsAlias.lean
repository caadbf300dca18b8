import Verif.Alias
import Verif.PropsIter
import Verif.Witness
import Verif.RealTab
/-!
# Several graphs, copies of graphs, and iterators while the graph grows (C60–C62)
-/

namespace DK2
variable {K : K2Impl}

/-! ## Programs with two graphs -/

/-- Two `DKtree` objects, named `false` and `true`, and the heap. -/
structure World (K : K2Impl) where
  heap : Heap K
  obj : Bool → HG

namespace World

/-- A call on one of the objects. -/
def step (S : Sizing) (w : World K) (c : Bool × Op) : Res (World K) := do
  let r ← HG.step S w.heap (w.obj c.1) c.2
  .ok ⟨r.1, Function.update w.obj c.1 r.2⟩

/-- A sequence of calls. -/
def runFrom (S : Sizing) : World K → List (Bool × Op) → Res (World K)
  | w, [] => .ok w
  | w, c :: cs => do
    let w' ← w.step S c
    runFrom S w' cs

/-- Two graphs built by `DKtree(n false)` and `DKtree(n true)` (DKtree.hpp:70-79). -/
def create (K : K2Impl) (S : Sizing) (n : Bool → Nat) : Res (World K) := do
  let a ← HG.create S (n false)
  let b ← HG.create S (n true)
  .ok ⟨[], fun x => if x then b else a⟩

/-- Two graphs built separately, then calls on both. -/
def run (K : K2Impl) (S : Sizing) (n : Bool → Nat) (cs : List (Bool × Op)) : Res (World K) := do
  let w ← create K S n
  runFrom S w cs

/-- `contains` of one object. -/
def contains (w : World K) (x : Bool) (e : Edge) : Res Bool := HG.contains w.heap (w.obj x) e

/-- `list_neighbour` of one object. -/
def listNeighbour (w : World K) (x : Bool) (v : Nat) : Res (List Nat) := HG.listNeighbour w.heap (w.obj x) v

/-- `get_number_edges` of one object. -/
def numberEdges (w : World K) (x : Bool) : Nat := (w.obj x).nTotal

/-- `get_number_nodes` of one object. -/
def numberNodes (w : World K) (x : Bool) : Nat := (w.obj x).nv

/-- Object `x` answers every query as the graph `g` does. -/
def Like (w : World K) (x : Bool) (g : DK K) : Prop :=
  (∀ e, w.contains x e = g.contains e) ∧ (∀ v, w.listNeighbour x v = g.listNeighbour v) ∧
    w.numberEdges x = g.numberEdges ∧ w.numberNodes x = g.numberNodes

end World

/-- The calls made on object `x`. -/
def ownOps (x : Bool) (cs : List (Bool × Op)) : List Op := (cs.filter (fun c => decide (c.1 = x))).map Prod.snd

@[simp] theorem ownOps_nil (x : Bool) : ownOps x [] = [] := rfl
theorem ownOps_cons (x : Bool) (c : Bool × Op) (cs : List (Bool × Op)) :
    ownOps x (c :: cs) = if c.1 = x then c.2 :: ownOps x cs else ownOps x cs := by
  unfold ownOps; by_cases h : c.1 = x <;> simp [h]

namespace World
open HG

/-- The objects own disjoint sets of trees. -/
structure Apart (w : World K) : Prop where
  own : ∀ x, Own w.heap (w.obj x).ps
  disj : ∀ a, some a ∈ (w.obj false).ps → some a ∈ (w.obj true).ps → False

theorem Apart.disj' {w : World K} (h : w.Apart) {x y : Bool} (hxy : x ≠ y) {a : Nat} (hx : some a ∈ (w.obj x).ps) :
    some a ∉ (w.obj y).ps := by
  intro hy
  cases x <;> cases y
  · exact hxy rfl
  · exact h.disj a hx hy
  · exact h.disj a hy hx
  · exact hxy rfl

theorem like_view {w : World K} {x : Bool} (h : Own w.heap (w.obj x).ps) : w.Like x (view w.heap (w.obj x)) :=
  ⟨fun e => contains_eq h e, fun v => listNeighbour_eq h v, rfl, rfl⟩

/-- One call: the object changes as the value does, the other object does not change. -/
theorem step_rel (S : Sizing) {w : World K} (h : w.Apart) (c : Bool × Op) :
    Res.Rel (fun (w' : World K) g => w'.Apart ∧ g = view w'.heap (w'.obj c.1) ∧
        ∀ y, y ≠ c.1 → view w'.heap (w'.obj y) = view w.heap (w.obj y))
      (w.step S c) ((view w.heap (w.obj c.1)).step S c.2) := by
  unfold step
  have hb : (view w.heap (w.obj c.1)).step S c.2 = ((view w.heap (w.obj c.1)).step S c.2 >>= fun g => .ok g) := by
    cases (view w.heap (w.obj c.1)).step S c.2 <;> rfl
  rw [hb]
  refine Res.Rel.bind (HG.step_rel S (h.own c.1) c.2) ?_
  rintro ⟨h', o'⟩ g ⟨a1, a2, a3, a4⟩
  have hsame : ∀ y, y ≠ c.1 → ∀ a, some a ∈ (w.obj y).ps → h'[a]? = w.heap[a]? := fun y hy a ha =>
    a3.same a ((h.own y).lt a ha) (h.disj' hy ha)
  refine .ok ⟨⟨?_, ?_⟩, ?_, ?_⟩
  · intro x
    by_cases hx : x = c.1
    · rw [hx]; simpa using a2
    · simp only [Function.update_of_ne hx]
      exact (h.own x).len a3.len
  · have key : ∀ y, y ≠ c.1 → ∀ a, some a ∈ o'.ps → some a ∉ (w.obj y).ps := by
      intro y hy a ha hm
      rcases a4 a ha with hx | hx
      · exact h.disj' hy hm hx
      · have := (h.own y).lt a hm; omega
    intro a h1 h2
    rcases c with ⟨x, op⟩
    cases x with
    | false =>
      simp only [Function.update_self, ne_eq, Bool.true_eq_false, not_false_eq_true, Function.update_of_ne] at h1 h2
      exact key true (by simp) a h1 h2
    | true =>
      simp only [Function.update_self, ne_eq, Bool.false_eq_true, not_false_eq_true, Function.update_of_ne] at h1 h2
      exact key false (by simp) a h2 h1
  · simpa using a1
  · intro y hy
    simp only [Function.update_of_ne hy]
    unfold view
    rw [vw_congr (hsame y hy)]

/-- Calls on both objects: each evolves alone. -/
theorem runFrom_own (S : Sizing) : ∀ (cs : List (Bool × Op)) {w w' : World K}, w.Apart →
    runFrom S w cs = .ok w' → w'.Apart ∧
      ∀ x, DK.runFrom S (view w.heap (w.obj x)) (ownOps x cs) = .ok (view w'.heap (w'.obj x)) := by
  intro cs
  induction cs with
  | nil => intro w w' h hr; cases hr; exact ⟨h, fun _ => rfl⟩
  | cons c cs ih =>
    intro w w' h hr
    simp only [runFrom] at hr
    rw [Res.bind_eq_ok] at hr
    obtain ⟨w1, h1, h2⟩ := hr
    have hs := step_rel S h c
    rw [h1] at hs
    obtain ⟨g, hg, b1, b2, b3⟩ := hs.ok_left
    obtain ⟨c1, c2⟩ := ih b1 h2
    refine ⟨c1, fun x => ?_⟩
    rw [ownOps_cons]
    by_cases hx : c.1 = x
    · subst hx
      rw [if_pos rfl]
      simp only [DK.runFrom, hg, Res.ok_bind, b2]
      exact c2 _
    · rw [if_neg hx, ← b3 x (fun he => hx he.symm)]
      exact c2 x

/-- If each object's own calls return, so does the program. -/
theorem runFrom_total (S : Sizing) : ∀ (cs : List (Bool × Op)) {w : World K}, w.Apart →
    (∀ x, ∃ g, DK.runFrom S (view w.heap (w.obj x)) (ownOps x cs) = .ok g) → ∃ w', runFrom S w cs = .ok w' := by
  intro cs
  induction cs with
  | nil => intro w _ _; exact ⟨w, rfl⟩
  | cons c cs ih =>
    intro w h hx
    have hs := step_rel S h c
    obtain ⟨g, hg⟩ := hx c.1
    rw [ownOps_cons, if_pos rfl] at hg
    simp only [DK.runFrom] at hg
    rw [Res.bind_eq_ok] at hg
    obtain ⟨g1, hg1, hg2⟩ := hg
    rw [hg1] at hs
    obtain ⟨w1, hw1, b1, b2, b3⟩ := hs.ok_right
    have : ∃ w', runFrom S w1 cs = .ok w' := by
      refine ih b1 fun x => ?_
      by_cases hxc : x = c.1
      · subst hxc; exact ⟨g, by rw [← b2]; exact hg2⟩
      · obtain ⟨g', hg'⟩ := hx x
        rw [ownOps_cons, if_neg (fun he => hxc he.symm)] at hg'
        exact ⟨g', by rw [b3 x hxc]; exact hg'⟩
    obtain ⟨w', hw'⟩ := this
    exact ⟨w', by simp only [runFrom, hw1, Res.ok_bind, hw']⟩

theorem create_view {S : Sizing} {n : Nat} {o : HG} (h : HG.create S n = .ok o) :
    DK.create K S n = .ok (view [] o) ∧ ∀ a, some a ∉ o.ps := by
  unfold HG.create at h
  split at h
  · cases h
  · rename_i hn
    cases h
    refine ⟨?_, fun a ha => ?_⟩
    · simp [DK.create, hn, DK.init, view, vw]
    · rw [List.mem_replicate] at ha; cases ha.2

theorem create_apart {S : Sizing} {n : Bool → Nat} {w : World K} (h : create K S n = .ok w) :
    w.Apart ∧ ∀ x, DK.create K S (n x) = .ok (view w.heap (w.obj x)) := by
  unfold create at h
  rw [Res.bind_eq_ok] at h
  obtain ⟨a, ha, h⟩ := h
  rw [Res.bind_eq_ok] at h
  obtain ⟨b, hb, h⟩ := h
  cases h
  obtain ⟨a1, a2⟩ := create_view (K := K) ha
  obtain ⟨b1, b2⟩ := create_view (K := K) hb
  have hps : ∀ {n o}, HG.create S n = .ok o → o.ps = List.replicate RS none := by
    intro n o h
    unfold HG.create at h
    split at h <;> cases h
    rfl
  refine ⟨⟨fun x => ?_, fun c hc _ => a2 c hc⟩, fun x => ?_⟩
  · cases x
    · simp only [Bool.false_eq_true, if_false, hps ha]; exact own_replicate _ _
    · simp only [if_true, hps hb]; exact own_replicate _ _
  · cases x
    · exact a1
    · exact b1

end World

open World HG

/-! ## C61 separately constructed graphs -/

/-- C61: two graphs constructed separately never influence each other: after any interleaved calls each answers as if
its own calls had been made alone, and the program returns normally exactly when each does alone. -/
theorem C61_independent (K : K2Impl) (S : Sizing) (n : Bool → Nat) (cs : List (Bool × Op)) :
    (∀ w, World.run K S n cs = .ok w → ∀ x, ∃ g, DK.run K S (n x) (ownOps x cs) = .ok g ∧ w.Like x g) ∧
    ((∀ x, ∃ g, DK.run K S (n x) (ownOps x cs) = .ok g) → ∃ w, World.run K S n cs = .ok w) := by
  constructor
  · intro w hw x
    unfold World.run at hw
    rw [Res.bind_eq_ok] at hw
    obtain ⟨w0, h0, h1⟩ := hw
    obtain ⟨a1, a2⟩ := create_apart h0
    obtain ⟨b1, b2⟩ := runFrom_own S cs a1 h1
    refine ⟨_, ?_, like_view (b1.own x)⟩
    unfold DK.run
    rw [a2 x, Res.ok_bind]
    exact b2 x
  · intro h
    have hn : ∀ x, n x ≠ 1 := by
      intro x hx
      obtain ⟨g, hg⟩ := h x
      simp [DK.run, DK.create, hx] at hg
    obtain ⟨w0, h0⟩ : ∃ w, World.create K S n = .ok w := by
      unfold World.create HG.create
      rw [if_neg (hn false), if_neg (hn true)]
      exact ⟨_, rfl⟩
    obtain ⟨a1, a2⟩ := create_apart h0
    obtain ⟨w, hw⟩ := runFrom_total S cs a1 (fun x => by
      obtain ⟨g, hg⟩ := h x
      unfold DK.run at hg
      rw [a2 x, Res.ok_bind] at hg
      exact ⟨g, hg⟩)
    exact ⟨w, by simp only [World.run, h0, Res.ok_bind, hw]⟩

/-! ## Which calls change existing trees -/

namespace HG

/-- Every tree that existed is unchanged. -/
def Keep (h h' : Heap K) : Prop := ∀ a, a < h.length → h'[a]? = h[a]?

theorem Keep.vw {h h' : Heap K} (hk : Keep h h') {ps : List (Option Nat)} (hl : ∀ a, some a ∈ ps → a < h.length) :
    vw h' ps = HG.vw h ps := vw_congr fun a ha => hk a (hl a ha)

theorem forcedScan_pure (hF : K.ForcedPure) {e : Edge} : ∀ {ps : List (Option Nat)} {h : Heap K}, Own h ps →
    ∃ b, forcedScan K e h ps = .ok (b, h) := by
  intro ps
  induction ps with
  | nil => intro h _; exact ⟨_, rfl⟩
  | cons p ps ih =>
    intro h ho
    cases p with
    | none => exact ih ho.tail
    | some a =>
      obtain ⟨t, ht⟩ := ho.get
      have hlt := ho.lt a (by simp)
      have hs : h.set a t = h := by
        obtain ⟨h1, h2⟩ := List.getElem?_eq_some_iff.1 ht
        rw [← h2]; exact List.set_getElem_self _
      simp only [forcedScan, rd_of ht, hF t e, wr_of hlt, Res.ok_bind, hs]
      split
      · exact ⟨_, rfl⟩
      · exact ih ho.tail

theorem containsForced_pure (hF : K.ForcedPure) {h : Heap K} {o : HG} (ho : Own h o.ps) {e : Edge} {r : Bool × Heap K}
    (hr : containsForced h o e = .ok r) : r.2 = h := by
  unfold containsForced at hr
  rw [Res.bind_eq_ok] at hr
  obtain ⟨b, _, hr⟩ := hr
  split at hr
  · cases hr; rfl
  · obtain ⟨b', hb⟩ := forcedScan_pure hF (e := e) ho
    rw [hb] at hr; cases hr; rfl

theorem flush_keep {h : Heap K} {o : HG} (ho : Own h o.ps) {e : Edge} {i : Nat} {r : Heap K × HG}
    (hr : flush h o e i = .ok r) : Keep h r.1 := by
  unfold flush at hr
  rw [Res.bind_eq_ok] at hr
  obtain ⟨conv, _, hr⟩ := hr
  rw [Res.bind_eq_ok] at hr
  obtain ⟨c, _, hr⟩ := hr
  have hn : some h.length ∉ o.ps := fun hm => lt_irrefl _ (ho.lt _ hm)
  obtain ⟨h', qs, h1, _, _, _, _, h6⟩ := mergeUpTo_ok (n := i + 1)
    (ho.len (Frame.push o.ps h (K.build (conv ++ [e]) o.nv)).len) hn (t := K.build (conv ++ [e]) o.nv) (by simp)
  rw [h1] at hr
  cases hr
  intro a ha
  rw [h6 a (ne_of_lt ha), List.getElem?_append_left ha]

/-- `add_edge` changes no existing tree. -/
theorem addEdge_keep (hF : K.ForcedPure) {S : Sizing} {h : Heap K} {o : HG} (ho : Own h o.ps) {e : Edge}
    {r : Heap K × HG} (hr : addEdge S h o e = .ok r) : Keep h r.1 := by
  unfold addEdge at hr
  rw [Res.bind_eq_ok] at hr
  obtain ⟨b, hb, hr⟩ := hr
  rw [containsForced_pure hF ho hb] at hr
  split at hr
  · cases hr; exact fun _ _ => rfl
  · split at hr
    · rw [Res.bind_eq_ok] at hr
      obtain ⟨c, _, hr⟩ := hr
      cases hr; exact fun _ _ => rfl
    · rw [Res.bind_eq_ok] at hr
      obtain ⟨l, _, hr⟩ := hr
      cases l with
      | none => cases hr
      | some i => exact flush_keep ho hr

theorem Keep.trans {h h' h'' : Heap K} (a : Keep h h') (b : Keep h' h'') (hl : h.length ≤ h'.length) : Keep h h'' :=
  fun x hx => (b x (lt_of_lt_of_le hx hl)).trans (a x hx)

/-- The reorganisation changes no existing tree either. -/
theorem rebuild_keep (hF : K.ForcedPure) {S : Sizing} {h : Heap K} {o : HG} (ho : Own h o.ps)
    {r : Heap K × HG} (hr : rebuild S h o = .ok r) : Keep h r.1 := by
  have hprep := rebuildPrep_rel S ho
  unfold rebuild at hr
  rw [Res.bind_eq_ok] at hr
  obtain ⟨⟨oo, h1, o1⟩, hp, hr⟩ := hr
  rw [hp] at hprep
  obtain ⟨⟨oo', g1⟩, _, _, _, ho1, f1, _⟩ := hprep.ok_left
  simp only at ho1 f1 hr
  have hk1 : Keep h h1 := by
    unfold rebuildPrep at hp
    split at hp
    · rw [Res.bind_eq_ok] at hp
      obtain ⟨b, _, hp⟩ := hp
      rw [Res.bind_eq_ok] at hp
      obtain ⟨q, hq, hp⟩ := hp
      cases hp
      exact addEdge_keep hF ho hq
    · cases hp; exact fun _ _ => rfl
  have hdrain := rebuildDrain_rel (h := h1) (o := o1)
  rw [Res.bind_eq_ok] at hr
  obtain ⟨⟨a, h2, c⟩, hd, hr⟩ := hr
  rw [hd] at hdrain
  obtain ⟨⟨t, c'⟩, _, _, d2, d3⟩ := hdrain.ok_left
  simp only at d2 d3 hr
  have hn : some h1.length ∉ o1.ps := fun hm => lt_irrefl _ (ho1.lt _ hm)
  rcases d3 with ⟨rfl, rfl, rfl⟩ | ⟨t, rfl, rfl, rfl⟩
  · rcases mergeAll_null ho1 with ⟨m1, m2⟩ | ⟨m1, m2⟩
    · rw [m1, Res.ok_bind, Res.bind_eq_ok] at hr
      obtain ⟨ps, _, hr⟩ := hr
      cases oo with
      | true => cases hr; exact hk1
      | false => cases hr
    · rw [m1] at hr; cases hr
  · obtain ⟨h3, t3, m1, m2, m3, m4, m5⟩ := mergeAll_ok (tmp := h1.length) (t := t) (ho1.len d2.len) hn (by simp)
    rw [m1, Res.ok_bind, Res.bind_eq_ok] at hr
    obtain ⟨ps, _, hr⟩ := hr
    have hlen : h1.length < h3.length := by rw [m4]; simp
    have hk3 : Keep h1 h3 := fun x hx => by rw [m5 x (ne_of_lt hx), List.getElem?_append_left hx]
    cases oo with
    | true => cases hr; exact hk1.trans hk3 f1.len
    | false =>
      simp only [Bool.false_eq_true, if_false, use, Res.ok_bind, rd_of m3, wr_of hlen] at hr
      cases hr
      intro x hx
      rw [List.getElem?_set_ne (by have := f1.len; omega)]
      exact (hk1.trans hk3 f1.len) x hx

/-- A history of calls on one graph, from an empty heap. -/
def runFrom (S : Sizing) : Heap K × HG → List Op → Res (Heap K × HG)
  | r, [] => .ok r
  | r, op :: ops => do
    let r' ← step S r.1 r.2 op
    runFrom S r' ops

/-- A history of calls on a graph built by `DKtree(n)` (DKtree.hpp:70-79). -/
def run (K : K2Impl) (S : Sizing) (n : Nat) (ops : List Op) : Res (Heap K × HG) := do
  let o ← create S n
  runFrom S ([], o) ops

theorem runFrom_rel (S : Sizing) : ∀ (ops : List Op) {h : Heap K} {o : HG}, Own h o.ps →
    Res.Rel (fun (r : Heap K × HG) g => g = view r.1 r.2 ∧ Own r.1 r.2.ps) (runFrom S (h, o) ops)
      (DK.runFrom S (view h o) ops) := by
  intro ops
  induction ops with
  | nil => intro h o ho; exact .ok ⟨rfl, ho⟩
  | cons op ops ih =>
    intro h o ho
    simp only [runFrom, DK.runFrom]
    refine Res.Rel.bind (step_rel S ho op) ?_
    rintro ⟨h', o'⟩ g ⟨a1, a2, _, _⟩
    simp only at a1 a2
    rw [a1]
    exact ih a2

theorem run_rel (S : Sizing) (n : Nat) (ops : List Op) :
    Res.Rel (fun (r : Heap K × HG) g => g = view r.1 r.2 ∧ Own r.1 r.2.ps) (run K S n ops) (DK.run K S n ops) := by
  unfold run DK.run
  cases hc : create S n with
  | ok o =>
    obtain ⟨h1, h2⟩ := create_view (K := K) hc
    rw [h1, Res.ok_bind, Res.ok_bind]
    refine runFrom_rel S ops ⟨fun a ha => (h2 a ha).elim, ?_⟩
    unfold create at hc
    split at hc <;> cases hc
    simp
  | ub =>
    unfold create at hc
    split at hc
    · rename_i hn; simp only [DK.create, if_pos hn]; exact .ub
    · cases hc
  | _ => unfold create at hc; split at hc <;> cases hc

end HG

/-! ## C60 copies of a graph -/

/-- The copy constructor (implicit; `Algorithm(Graph &g): g(g)`, Algorithm.hpp:21): the two objects have the same
members, in particular the same pointers. -/
def World.copy (r : Heap K × HG) : World K := ⟨r.1, fun _ => r.2⟩

/-- C60: a copy of a graph and the original are independent: after any calls on both, each answers as if it had made
all the calls before the copy and then its own. -/
def C60_Full : Prop :=
  ∀ K : K2Impl, K.Lawful → K.ForcedPure → ∀ n ops r, OpsInRange n ops → HG.run K realSizing n ops = .ok r →
    ∀ cs w, (∀ c ∈ cs, InRange n c.2.edge) → World.runFrom realSizing (World.copy r) cs = .ok w →
    ∀ x, ∃ g, DK.run K realSizing n (ops ++ ownOps x cs) = .ok g ∧
      ∀ e, InRange n e → w.contains x e = g.contains e

/-- Insertions leave every shared tree as it is, so each object is as it would be alone. -/
theorem World.runFrom_adds (hF : K.ForcedPure) (S : Sizing) : ∀ (cs : List (Bool × Op)) (w w' : World K),
    (∀ c ∈ cs, ∃ e, c.2 = .add e) → (∀ x, Own w.heap (w.obj x).ps) → World.runFrom S w cs = .ok w' →
    (∀ x, Own w'.heap (w'.obj x).ps) ∧
      ∀ x, DK.runFrom S (view w.heap (w.obj x)) (ownOps x cs) = .ok (view w'.heap (w'.obj x)) := by
  intro cs
  induction cs with
  | nil => intro w w' _ h hr; cases hr; exact ⟨h, fun _ => rfl⟩
  | cons c cs ih =>
    intro w w' hc h hr
    simp only [World.runFrom] at hr
    rw [Res.bind_eq_ok] at hr
    obtain ⟨w1, h1, h2⟩ := hr
    obtain ⟨e, he⟩ := hc c (by simp)
    unfold World.step at h1
    rw [Res.bind_eq_ok] at h1
    obtain ⟨⟨h', o'⟩, h3, h4⟩ := h1
    cases h4
    have hs := HG.step_rel S (h c.1) c.2
    rw [h3] at hs
    obtain ⟨g, hg, b1, b2, b3, _⟩ := hs.ok_left
    simp only at b1 b2 b3
    rw [he] at h3
    have hk : Keep w.heap h' := addEdge_keep hF (h c.1) h3
    obtain ⟨c1, c2⟩ := ih _ _ (fun d hd => hc d (List.mem_cons_of_mem _ hd)) (fun x => by
      by_cases hx : x = c.1
      · rw [hx]; simpa using b2
      · simp only [Function.update_of_ne hx]; exact (h x).len b3.len) h2
    refine ⟨c1, fun x => ?_⟩
    have c3 := c2 x
    rw [ownOps_cons]
    by_cases hx : c.1 = x
    · subst hx
      rw [if_pos rfl]
      simp only [DK.runFrom, hg, Res.ok_bind, b1]
      simpa using c3
    · rw [if_neg hx]
      simp only [Function.update_of_ne (fun he => hx he.symm : x ≠ c.1)] at c3
      have hv : view h' (w.obj x) = view w.heap (w.obj x) := by
        unfold view; rw [hk.vw (h x).lt]
      rw [hv] at c3
      exact c3

/-- Insertions through a copy do not show in the original, and the reverse: whatever the history before the copy,
after insertions on both sides each object answers as if it were alone. -/
theorem C60_insert_partial (hF : K.ForcedPure) (S : Sizing) {n : Nat} {ops : List Op} {r : Heap K × HG}
    (hr : HG.run K S n ops = .ok r) {cs : List (Bool × Op)} {w : World K} (hc : ∀ c ∈ cs, ∃ e, c.2 = .add e)
    (hw : World.runFrom S (World.copy r) cs = .ok w) (x : Bool) :
    ∃ g, DK.run K S n (ops ++ ownOps x cs) = .ok g ∧ w.Like x g := by
  have h0 := HG.run_rel (K := K) S n ops
  rw [hr] at h0
  obtain ⟨g0, hg0, e0, ho⟩ := h0.ok_left
  obtain ⟨k1, k2⟩ := World.runFrom_adds hF S cs _ _ hc (fun _ => ho) hw
  refine ⟨_, ?_, like_view (k1 x)⟩
  rw [DK.run_append, hg0, Res.ok_bind, e0]
  exact k2 x

/-- A deletion through the copy, exactly: the original keeps its count and its buffer, but loses the edge if the edge was
in a tree (and the object deleted from did not have it in its buffer). -/
theorem C60_delete_partial (hK : K.Lawful) (hF : K.ForcedPure) (S : Sizing) {n : Nat} {ops : List Op}
    {r : Heap K × HG} (ho : OpsInRange n ops) (hr : HG.run K S n ops = .ok r) {e : Edge} (he : InRange n e)
    {w : World K} (hw : World.runFrom S (World.copy r) [(true, .del e)] = .ok w) :
    w.numberEdges false = r.2.nTotal ∧
    ∀ e', InRange n e' → (w.contains false e' = .ok true ↔
      HG.contains r.1 r.2 e' = .ok true ∧ (e' ≠ e ∨ r.2.c0.contains e = .ok true)) := by
  have h0 := HG.run_rel (K := K) S n ops
  rw [hr] at h0
  obtain ⟨g0, hg0, e0, hown⟩ := h0.ok_left
  obtain ⟨tr, hnv, _⟩ := DK.run_track hK hF S ho hg0
  rw [e0] at tr hnv
  have hinv := tr.inv
  simp only [World.runFrom, Res.bind_eq_ok, World.step, World.copy, HG.step] at hw
  obtain ⟨w1, ⟨⟨h', o'⟩, h1, h2⟩, h3⟩ := hw
  cases h3; cases h2
  have hrange : ∀ {x}, InRange n x → InRange (view r.1 r.2).nv x := fun h => by rw [hnv]; exact h
  -- the state of the original
  have hfin : ∀ h' : Heap K, Own h' r.2.ps → ∀ v, HG.vw h' r.2.ps = v →
      ∀ e', HG.contains h' r.2 e' = DK.contains { view r.1 r.2 with ks := v } e' := by
    intro h' ho' v hv e'
    rw [HG.contains_eq ho']
    unfold view
    rw [hv]
  have hc0 := hinv.c0wf.contains_eq e
  refine ⟨rfl, fun e' he' => ?_⟩
  change HG.contains h' r.2 e' = .ok true ↔ _
  have hold : HG.contains r.1 r.2 e' = .ok true ↔ e' ∈ (view r.1 r.2).edgesOf := by
    rw [HG.contains_eq hown, hinv.contains_eq hK (hrange he')]; simp
  unfold delEdge at h1
  rw [Res.bind_eq_ok] at h1
  obtain ⟨⟨b, c⟩, hb, h1⟩ := h1
  obtain ⟨c', a1, _⟩ := hinv.c0wf.erase_ok e
  have hb' : (view r.1 r.2).c0.erase e = .ok (b, c) := hb
  rw [a1] at hb'
  injection hb' with hb'
  have hbb : decide (e ∈ r.2.c0.live) = b := congrArg Prod.fst hb'
  have hc0' : r.2.c0.contains e = .ok b := by rw [← hbb]; exact hc0
  rw [hc0']
  cases b with
  | true =>
    cases h1
    simp
  | false =>
    simp only [Bool.false_eq_true, if_false] at h1
    obtain ⟨h2, s1, s2, s3, s4⟩ := eraseScan_ok (e := e) hown
    have ho2 : Own h2 r.2.ps := hown.len s4.ge
    obtain ⟨qs, q1, q2, q3⟩ := sweep_ok ho2
    rw [s1, Res.ok_bind, q1, Res.ok_bind] at h1
    have hkl : Keep h2 h' ∧ h2.length ≤ h'.length := by
      simp only at h1
      generalize (if (DK.eraseScan K e (vw r.1 r.2.ps)).1 = true then decr r.2.nTotal else r.2.nTotal) = nt at h1
      split at h1
      · have hq : Own h2 ({ r.2 with c0 := c, ps := qs, nTotal := nt } : HG).ps := ho2.sub q3
        refine ⟨rebuild_keep hF hq h1, ?_⟩
        have := rebuild_rel S hq
        rw [h1] at this
        obtain ⟨_, _, _, _, f, _⟩ := this.ok_left
        exact f.len
      · cases h1; exact ⟨fun _ _ => rfl, le_rfl⟩
    have hv : vw h' r.2.ps = (DK.eraseScan K e (vw r.1 r.2.ps)).2 := by
      rw [hkl.1.vw ho2.lt, s2]
    have hnd : (DK.flat K (vw r.1 r.2.ps)).Nodup := (List.nodup_append.1 hinv.nodup).2.1
    obtain ⟨i1, i2, _, i4, _⟩ := DK.eraseScan_spec hK (n := n) he (ks := vw r.1 r.2.ps)
      (by have := hinv.val; rw [hnv] at this; exact this) hnd
    rw [hfin h' (ho2.len hkl.2) _ hv e', hold]
    have hw' : DK.WInv { view r.1 r.2 with ks := (DK.eraseScan K e (vw r.1 r.2.ps)).2 } := by
      refine ⟨hinv.c0wf, hinv.c0nv, ?_, ?_, hinv.maxR_lt, ?_⟩
      · exact i2.trans hinv.len
      · show DK.AllValid K (view r.1 r.2).nv _
        rw [hnv]; exact i1
      · intro a ha
        rcases List.mem_append.1 ha with ha | ha
        · exact hinv.range a (List.mem_append_left _ ha)
        · exact hinv.range a (List.mem_append_right _ ((i4 a).1 ha).1)
    rw [hw'.contains_eq hK (hrange he')]
    simp only [Res.ok.injEq, decide_eq_true_eq, Bool.false_eq_true, or_false]
    have hne : e ∉ r.2.c0.live := by simpa using hbb
    constructor
    · intro hm
      rcases List.mem_append.1 hm with hm | hm
      · exact ⟨List.mem_append_left _ hm, fun hx => hne (hx ▸ hm)⟩
      · exact ⟨List.mem_append_right _ ((i4 e').1 hm).1, ((i4 e').1 hm).2⟩
    · rintro ⟨hm, hx⟩
      rcases List.mem_append.1 hm with hm | hm
      · exact List.mem_append_left _ hm
      · exact List.mem_append_right _ ((i4 e').2 ⟨hm, hx⟩)


/-- Three edges in one tree of a graph on three vertices; the copy deletes one. -/
theorem C60_refuted : ¬ C60_Full := by
  intro hfull
  have hx : DK.check (HG.run refK2 hybSizing 3 [.add (0, 0), .add (2, 0), .add (2, 1)]) (fun r =>
      DK.check (World.runFrom hybSizing (World.copy r) [(true, .del (0, 0))]) (fun w =>
        decide (w.contains false (0, 0) = .ok false))) = true := by decide +kernel
  obtain ⟨r, h1, h2⟩ := DK.check_iff.1 hx
  obtain ⟨w, h3, h4⟩ := DK.check_iff.1 h2
  rw [← realSizing_eq_hyb] at h1 h3
  obtain ⟨g, hg, h5⟩ := hfull refK2 refK2_lawful refK2_forcedPure 3 _ r (by decide) h1 _ w (by decide) h3 false
  have hy : DK.check (DK.run refK2 hybSizing 3 ([.add (0, 0), .add (2, 0), .add (2, 1)] ++
      ownOps false [(true, .del (0, 0))])) (fun g => decide (g.contains (0, 0) = .ok true)) = true := by decide +kernel
  obtain ⟨g', hg', h6⟩ := DK.check_iff.1 hy
  rw [← realSizing_eq_hyb, hg] at hg'
  cases hg'
  have h7 := h5 (0, 0) (by decide)
  simp only [decide_eq_true_eq] at h4 h6
  rw [h4, h6] at h7
  cases h7

/-- `C61_independent` on a run in which both graphs own trees, one deletes, and their calls alternate. -/
example : ∃ w, World.run refK2 realSizing (fun x => cond x 4 3) [(false, .add (0, 0)), (true, .add (3, 3)),
    (false, .add (2, 0)), (true, .add (3, 0)), (false, .add (2, 1)), (true, .add (1, 1)), (false, .del (2, 0)),
    (true, .add (0, 0)), (true, .add (0, 1)), (false, .add (2, 2))] = .ok w ∧ w.contains false (0, 0) = .ok true ∧
    w.contains false (2, 0) = .ok false ∧ w.contains true (0, 1) = .ok true ∧ w.contains true (2, 0) = .ok false := by
  have hx : DK.check (World.run refK2 hybSizing (fun x => cond x 4 3) [(false, .add (0, 0)), (true, .add (3, 3)),
    (false, .add (2, 0)), (true, .add (3, 0)), (false, .add (2, 1)), (true, .add (1, 1)), (false, .del (2, 0)),
    (true, .add (0, 0)), (true, .add (0, 1)), (false, .add (2, 2))]) (fun w => decide (w.contains false (0, 0) = .ok true ∧
    w.contains false (2, 0) = .ok false ∧ w.contains true (0, 1) = .ok true ∧ w.contains true (2, 0) = .ok false)) = true := by
    decide +kernel
  obtain ⟨w, h1, h2⟩ := DK.check_iff.1 hx
  rw [← realSizing_eq_hyb] at h1
  exact ⟨w, h1, by simpa using h2⟩

/-- `C60_insert_partial` on a graph with a tree and a deletion in its past, and insertions on both sides that merge the
shared tree. -/
example : ∃ r, HG.run refK2 realSizing 3 [.add (0, 0), .add (2, 0), .add (2, 1), .del (2, 0)] = .ok r ∧
    ∃ w, World.runFrom realSizing (World.copy r) [(true, .add (1, 1)), (false, .add (0, 2)), (true, .add (1, 0)),
      (true, .add (0, 1)), (true, .add (2, 2)), (false, .add (2, 0))] = .ok w ∧ w.contains true (1, 1) = .ok true ∧
      w.contains false (1, 1) = .ok false ∧ w.contains true (0, 0) = .ok true ∧ w.contains false (0, 0) = .ok true := by
  have hx : DK.check (HG.run refK2 hybSizing 3 [.add (0, 0), .add (2, 0), .add (2, 1), .del (2, 0)]) (fun r =>
      DK.check (World.runFrom hybSizing (World.copy r) [(true, .add (1, 1)), (false, .add (0, 2)), (true, .add (1, 0)),
      (true, .add (0, 1)), (true, .add (2, 2)), (false, .add (2, 0))]) (fun w => decide (w.contains true (1, 1) = .ok true ∧
      w.contains false (1, 1) = .ok false ∧ w.contains true (0, 0) = .ok true ∧
      w.contains false (0, 0) = .ok true))) = true := by decide +kernel
  obtain ⟨r, h1, h2⟩ := DK.check_iff.1 hx
  obtain ⟨w, h3, h4⟩ := DK.check_iff.1 h2
  rw [← realSizing_eq_hyb] at h1 h3
  exact ⟨r, h1, w, h3, by simpa using h4⟩

/-- `C60_delete_partial` in both its cases: an edge of the shared tree, and an edge of the buffer. -/
example : ∃ r, HG.run refK2 realSizing 3 [.add (0, 0), .add (2, 0), .add (2, 1), .add (1, 1)] = .ok r ∧
    (∃ w, World.runFrom realSizing (World.copy r) [(true, .del (2, 0))] = .ok w ∧ w.contains false (2, 0) = .ok false) ∧
    ∃ w, World.runFrom realSizing (World.copy r) [(true, .del (1, 1))] = .ok w ∧ w.contains false (1, 1) = .ok true := by
  have hx : DK.check (HG.run refK2 hybSizing 3 [.add (0, 0), .add (2, 0), .add (2, 1), .add (1, 1)]) (fun r =>
      DK.check (World.runFrom hybSizing (World.copy r) [(true, .del (2, 0))]) (fun w =>
        decide (w.contains false (2, 0) = .ok false)) &&
      DK.check (World.runFrom hybSizing (World.copy r) [(true, .del (1, 1))]) (fun w =>
        decide (w.contains false (1, 1) = .ok true))) = true := by decide +kernel
  obtain ⟨r, h1, h2⟩ := DK.check_iff.1 hx
  rw [Bool.and_eq_true] at h2
  obtain ⟨w, h3, h4⟩ := DK.check_iff.1 h2.1
  obtain ⟨w', h5, h6⟩ := DK.check_iff.1 h2.2
  rw [← realSizing_eq_hyb] at h1 h3 h5
  exact ⟨r, h1, ⟨w, h3, by simpa using h4⟩, w', h5, by simpa using h6⟩

end DK2
