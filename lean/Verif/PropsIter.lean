import Verif.IterProofs
import Verif.PropsGraph
/-!
# Properties of the iterators of `DKtree` (C09–C11)
-/

namespace DK2
open DK

variable {K : K2Impl}

/-! ## C09 neighbour iteration -/

theorem toInt_small {n : Nat} (hn : n ≤ 2 ^ 31) {l : List Nat} (h : ∀ y ∈ l, y < n) :
    l.map toInt = l.map (fun y : Nat => (y : Int)) :=
  List.map_congr_left fun y hy => toInt_of_lt (by have := h y hy; omega)

theorem mem_treesNeigh {x y : Nat} : ∀ {ks : List (Option K.T)}, y ∈ treesNeigh K x ks →
    ∃ t, some t ∈ ks ∧ y ∈ K.neigh t x := by
  intro ks
  induction ks with
  | nil => intro h; cases h
  | cons o ks ih =>
    intro h
    cases o with
    | none => obtain ⟨t, h1, h2⟩ := ih h; exact ⟨t, by simp [h1], h2⟩
    | some u =>
      rcases List.mem_append.1 h with h | h
      · exact ⟨u, by simp, h⟩
      · obtain ⟨t, h1, h2⟩ := ih h; exact ⟨t, by simp [h1], h2⟩

theorem listNeighbour_lt (hK : K.Lawful) (S : Sizing) {n : Nat} {ops : List Op}
    {g : DK K} (ho : OpsInRange n ops) (hr : run K S n ops = .ok g) {x : Nat} (hx : x < n) {l : List Nat}
    (h1 : g.listNeighbour x = .ok l) : ∀ y ∈ l, y < n := by
  obtain ⟨w, hnv, _⟩ := run_weak hK S ho hr
  intro y hy
  have hm : (x, y) ∈ g.edgesOf := by
    unfold DK.listNeighbour at h1
    rw [w.c0wf.listNeighbours_eq] at h1
    cases h1
    rcases List.mem_append.1 hy with h | h
    · apply List.mem_append_left
      simp only [List.mem_reverse, List.mem_map, List.mem_filter, decide_eq_true_eq] at h
      obtain ⟨a, ⟨h3, h4⟩, h5⟩ := h
      have : a = (x, y) := Prod.ext h4 h5
      exact this ▸ h3
    · apply List.mem_append_right
      obtain ⟨t, ht1, ht2⟩ := mem_treesNeigh h
      have ht1 := List.mem_of_mem_take ht1
      exact mem_flat.2 ⟨t, ht1, (hK.neigh_iff g.nv t x y (w.val t ht1) (by rw [hnv]; exact hx)).1 ht2⟩
  have := (w.range _ hm).2
  rw [hnv] at this; exact this

/-- C09: whatever the history and the levels it leaves empty, the loop from `neighbour_begin(x)` to
`neighbour_end()` ends and visits `list_neighbour(x)` in order, for the vertex numbers an `int` can hold. -/
theorem C09_neighbour_iterator (hK : K.Lawful) (S : Sizing) {n : Nat} (hn : n ≤ 2 ^ 31) {ops : List Op}
    {g : DK K} (ho : OpsInRange n ops) (hr : run K S n ops = .ok g) {x : Nat} (hx : x < n) :
    ∃ l, g.listNeighbour x = .ok l ∧
      ∀ fuel, l.length < fuel → g.nbAll x fuel = .ok (l.map (fun y : Nat => (y : Int))) := by
  obtain ⟨w, hnv, _⟩ := run_weak hK S ho hr
  obtain ⟨l, h1, h2⟩ := w.nbAll_eq x
  have hlt := listNeighbour_lt hK S ho hr hx h1
  refine ⟨l, h1, fun f hf => ?_⟩
  rw [← toInt_small hn hlt]
  refine h2 ?_ f hf
  intro y hy
  rw [toInt_of_lt (by have := hlt y hy; omega)]
  omega

/-- C09 with the specification: on histories without reorganisation the loop visits each successor of `x`
exactly once, and nothing else. -/
theorem C09_successors (hK : K.Lawful) (hF : K.ForcedPure) (S : Sizing) {n : Nat} (hn : n ≤ 2 ^ 31)
    {ops : List Op} {g : DK K} (ho : OpsInRange n ops) (hq : Quiet K S n ops) (hr : run K S n ops = .ok g)
    {x : Nat} (hx : x < n) :
    ∃ fuel l, g.nbAll x fuel = .ok l ∧ l.Nodup ∧ ∀ y : Nat, (y : Int) ∈ l ↔ specMem ops (x, y) := by
  obtain ⟨l, a1, a2, a3⟩ := C07_quiet_partial hK hF S ho hq hx hr
  obtain ⟨l', b1, b2⟩ := C09_neighbour_iterator hK S hn ho hr hx
  rw [a1] at b1; cases b1
  refine ⟨l.length + 1, _, b2 _ (by omega), ?_, ?_⟩
  · exact a2.map (fun a b h => by simpa using h)
  · intro y
    rw [← a3 y]
    simp

/-- Beyond `int`: a neighbour `y ≥ 2^31` is reported as a negative number, and `2^32-1` as the end. -/
theorem C09_beyond_int (y : Nat) (h1 : 2 ^ 31 ≤ y) (h2 : y < 2 ^ 32) :
    toInt y < 0 ∧ (toInt y = -1 ↔ y = 2 ^ 32 - 1) := by
  have : toInt y = (y : Int) - 2 ^ 32 := by
    unfold toInt
    rw [Nat.mod_eq_of_lt h2, if_neg (by omega)]
  rw [this]
  omega

/-- Instance: a graph with an occupied level, an empty level and a non-empty buffer. -/
example : ∃ g : DK refK2, run refK2 realSizing 4 (wCap ++ [.add (0, 0), .add (3, 3), .add (3, 2)]) = .ok g ∧
    decide (g.nbAll 0 9 = (g.listNeighbour 0 >>= fun l => .ok (l.map (fun y : Nat => (y : Int)))) ∧
      (g.listNeighbour 0 >>= fun l => .ok l.length) = .ok 4 ∧ g.c0.size > 0) = true :=
  real_check (by decide) (by decide)

/-! ## C11 node iteration -/

/-- C11: the loop from `node_begin()` to `node_end()` visits `0,…,n-1` in order (vertex counts an `int`
can hold), and incrementing the end iterator leaves it at the end. -/
theorem C11_node_iterator (hK : K.Lawful) (S : Sizing) {n : Nat} (hn : n < 2 ^ 31) {ops : List Op}
    {g : DK K} (ho : OpsInRange n ops) (hr : run K S n ops = .ok g) :
    (∀ fuel, n < fuel → g.nodeAll fuel = .ok ((List.range n).map (fun i : Nat => (i : Int)))) ∧
    (∀ it : NodeIt, nodeCur it = none → nodeCur (nodeNext it) = none) := by
  obtain ⟨_, hnv, _⟩ := run_weak hK S ho hr
  refine ⟨fun f hf => ?_, fun it h => ?_⟩
  · have := nodeAll_eq (g := g) (by show g.nv < _; omega) f (by show g.nv < _; omega)
    rw [this]
    show Res.ok ((List.range g.nv).map _) = _
    rw [hnv]
  · have hp : it.ptr = -1 := by
      unfold nodeCur at h
      by_contra hc
      rw [if_neg hc] at h; cases h
    unfold nodeNext
    rw [if_pos (Or.inr hp)]; rfl

/-- Beyond `int`: with `2^31 ≤ n < 2^32` vertices the loop visits nothing. -/
theorem C11_beyond_int (g : DK K) (h1 : 2 ^ 31 ≤ g.nv) (h2 : g.nv < 2 ^ 32) (fuel : Nat) :
    g.nodeAll (fuel + 1) = .ok [] := by
  have hn : toInt g.numberNodes < 0 := (C09_beyond_int g.nv h1 h2).1
  unfold nodeAll nodeBegin
  rw [if_neg (by omega)]
  rfl

/-- Instance of C11. -/
example : ∃ g : DK refK2, run refK2 realSizing 3 wDrift = .ok g ∧
    decide (g.nodeAll 4 = .ok [0, 1, 2]) = true := real_check (by decide) (by decide)

/-! ## C10 edge iteration -/

/-- The loop `for (auto &it = g.edge_begin(); it != g.edge_end(); ++it)` (by reference): the visited edges
and the value of the member's `_i` afterwards. -/
def driveI (fuel : Nat) (it : EIt) : Res (List Edge × Nat) :=
  match fuel with
  | 0 => .diverge
  | f + 1 =>
    match eCur it with
    | none => .ok ([], it.i)
    | some a => do
      let it' ← eNext it
      let r ← driveI f it'
      .ok (a :: r.1, r.2)

/-- As `eAll`, also giving `_i` at the end. -/
def DK.eLoop (g : DK K) (i0 fuel : Nat) : Res (List Edge × Nat) := do
  let it ← g.eBegin i0
  driveI fuel it

/-- C10: the loop over the edges ends and visits exactly the edges, each once (first loop on the object;
sentinel excluded by `n`). -/
def C10_Full (S : Sizing) : Prop :=
  ∀ K : K2Impl, K.Lawful → K.ForcedPure → ∀ n ops (g : DK K), n ≤ 9999999 → OpsInRange n ops →
    run K S n ops = .ok g →
      ∃ fuel l, g.eAll 0 fuel = .ok l ∧ l.Nodup ∧ ∀ e, InRange n e → (e ∈ l ↔ g.contains e = .ok true)

/-- After deleting an edge from the buffer the loop shows the deleted edge and hides another one. -/
def wTomb : List Op := [.add (0, 1), .add (0, 2), .del (0, 1)]

theorem drive_mono {σ α : Type} {cur : σ → Option α} {next : σ → Res σ} : ∀ {f f' : Nat} {s : σ}
    {l l' : List α}, drive cur next f s = .ok l → drive cur next f' s = .ok l' → l = l' := by
  intro f
  induction f with
  | zero => intro f' s l l' h; cases h
  | succ f ih =>
    intro f' s l l' h h'
    cases f' with
    | zero => cases h'
    | succ f' =>
      unfold drive at h h'
      cases hc : cur s with
      | none => rw [hc] at h h'; cases h; cases h'; rfl
      | some a =>
        rw [hc] at h h'
        obtain ⟨s1, e1, h⟩ := Res.bind_eq_ok.1 h
        obtain ⟨s2, e2, h'⟩ := Res.bind_eq_ok.1 h'
        rw [e1] at e2; cases e2
        obtain ⟨r1, e3, h⟩ := Res.bind_eq_ok.1 h
        obtain ⟨r2, e4, h'⟩ := Res.bind_eq_ok.1 h'
        cases h; cases h'
        rw [ih e3 e4]

theorem C10_refuted_of {S : Sizing} (hS : Agree tabSizing S 2 17) : ¬ C10_Full S := by
  intro h
  obtain ⟨g, hg, h1⟩ := tab_check hS (n := 4) (ops := wTomb)
    (f := fun g => decide (g.eAll 0 9 = .ok [(0, 1)] ∧ g.contains (0, 1) = .ok false))
    (by decide) (by decide)
  simp only [decide_eq_true_eq] at h1
  obtain ⟨f, l, a1, _, a3⟩ := h refK2 refK2_lawful refK2_forcedPure 4 wTomb g (by decide) (by decide) hg
  have hl : l = [(0, 1)] := by
    have hb := h1.1
    unfold DK.eAll at a1 hb
    obtain ⟨it, b1, b2⟩ := Res.bind_eq_ok.1 a1
    obtain ⟨it', c1, c2⟩ := Res.bind_eq_ok.1 hb
    rw [b1] at c1; cases c1
    exact drive_mono b2 c2
  subst hl
  have := (a3 (0, 1) (by decide)).1 (by simp)
  rw [h1.2] at this; cases this

theorem C10_refuted : ¬ C10_Full realSizing := C10_refuted_of agree_tab_real

/-- What the loop yields on any history: the first `size()` buffer slots (erased ones included), then the
trees, level by level.  With no erased buffer slot these are exactly the edges, each once.
Missing: histories that leave an erased slot in the buffer or a tree without live edges (false,
`C10_refuted`), and graphs with more than 9999999 vertices, whose edge `(9999999,9999999)` is the end mark. -/
theorem C10_edges_partial (hK : K.Lawful) (hF : K.ForcedPure) (S : Sizing) {n : Nat} (hn : n ≤ 9999999)
    {ops : List Op} {g : DK K} (ho : OpsInRange n ops) (hr : run K S n ops = .ok g)
    (h0 : n ≠ 0) (hne : g.NoEmptyTree) (hm : g.c0.marked = 0) :
    ∃ l, (∀ fuel, l.length < fuel → g.eAll 0 fuel = .ok l) ∧ l.Nodup ∧
      ∀ e, InRange n e → (e ∈ l ↔ g.contains e = .ok true) := by
  obtain ⟨t, hnv, _⟩ := run_track hK hF S ho hr
  have hs := slots_eq_live t.inv.c0wf hm
  have hE : slots g.c0 ++ flat K g.ks = g.edgesOf := by rw [hs]; rfl
  refine ⟨g.edgesOf, fun f hf => ?_, t.inv.nodup, fun e he => ?_⟩
  · have := t.inv.toWInv.eAll_eq (by rw [hnv]; exact h0) hne (by
      rw [hE]
      intro hc
      have := (t.inv.range _ hc).1
      rw [hnv] at this
      have h' : maxEdge.1 = 9999999 := rfl
      omega) f (by rw [hE]; exact hf)
    rw [this, hE]
  · rw [t.inv.contains_eq hK (by rw [hnv]; exact he)]; simp

/-- No tree without live edges after a history without reorganisation. -/
theorem NoEmptyTree.addEdge (hK : K.Lawful) (hF : K.ForcedPure) (S : Sizing) {g g' : DK K} (hi : g.Inv)
    (h : g.NoEmptyTree) {e : Edge} (he : InRange g.nv e) (hr : g.addEdge S e = .ok g') :
    g'.NoEmptyTree := by
  unfold DK.addEdge at hr
  rw [containsForced_pure hF, hi.contains_eq hK he] at hr
  simp only [Res.ok_bind] at hr
  by_cases hm : e ∈ g.edgesOf
  · simp only [hm, decide_true, if_true] at hr
    cases hr; exact h
  · simp only [hm, decide_false, Bool.false_eq_true, if_false] at hr
    split at hr
    · obtain ⟨c, _, hr⟩ := Res.bind_eq_ok.1 hr
      cases hr; exact h
    · split at hr
      · cases hr
      · rename_i i hsel
        rw [hi.c0wf.converted_eq] at hr
        simp only [Res.ok_bind] at hr
        have hlt := (selectLevel_lt S _ _ _ _ _ hsel).2
        rw [Nat.zero_add] at hlt
        rw [mergeUpTo_snd, set_replicate_drop hlt] at hr
        obtain ⟨_, _, hr⟩ := Res.bind_eq_ok.1 hr
        cases hr
        have hl : e ∉ g.c0.live := fun hh => hm (List.mem_append_left _ hh)
        have hnd : (g.c0.live ++ [e]).Nodup := by
          rw [List.nodup_append]
          exact ⟨hi.c0wf.live_nodup, by simp, by
            intro a ha b hb hab; simp at hb; exact hl (hb ▸ hab ▸ ha)⟩
        have hrg : ∀ e' ∈ g.c0.live ++ [e], InRange g.nv e' := by
          intro e' he'
          rcases List.mem_append.1 he' with h1 | h1
          · exact hi.range e' (List.mem_append_left _ h1)
          · simp at h1; exact h1 ▸ he
        intro t ht
        rcases List.mem_append.1 ht with h1 | h1
        · simp [List.mem_replicate] at h1
        · rcases List.mem_cons.1 h1 with h3 | h3
          · cases h3
            have hb : e ∈ K.edges (K.build (g.c0.live ++ [e]) g.nv) :=
              (hK.build_edges _ _ hnd hrg e).2 (by simp)
            have hm := ((mergeUpTo_fst hK (i + 1) _ g.ks (hK.build_valid _ _ hnd hrg) hi.val).2 e).2
              (Or.inl hb)
            intro hc; rw [hc] at hm; cases hm
          · exact h t (List.mem_of_mem_drop h3)

theorem sweep_nonempty (hK : K.Lawful) {n : Nat} : ∀ {ks : List (Option K.T)}, AllValid K n ks →
    ∀ t, some t ∈ (sweep K ks).2 → K.edges t ≠ [] := by
  intro ks
  induction ks with
  | nil => intro _ t ht; simp [sweep] at ht
  | cons o ks ih =>
    intro hv t ht
    cases o with
    | none => simp [sweep] at ht; exact ih hv.tail t ht
    | some u =>
      simp only [sweep] at ht
      split at ht
      · simp at ht; exact ih hv.tail t ht
      · rename_i hm
        simp at ht
        rcases ht with rfl | ht
        · have := hK.total_eq n t hv.head
          intro hc; rw [hc] at this; simp at this; omega
        · exact ih hv.tail t ht

theorem NoEmptyTree.delEdge_quiet (hK : K.Lawful) (S : Sizing) {g g' : DK K} (hi : g.Inv)
    (h : g.NoEmptyTree) {e : Edge} (he : InRange g.nv e) (hq : g.rebuilds S e = false)
    (hr : g.delEdge S e = .ok g') : g'.NoEmptyTree := by
  obtain ⟨c, h1, _⟩ := hi.c0wf.erase_ok e
  unfold DK.delEdge at hr
  unfold DK.rebuilds at hq
  rw [h1] at hr hq
  simp only [Res.ok_bind] at hr
  by_cases hm : e ∈ g.c0.live
  · simp only [hm, decide_true, if_true] at hr
    cases hr; exact h
  · simp only [hm, decide_false, Bool.false_eq_true, if_false] at hr hq
    rw [hq] at hr
    simp only [Bool.false_eq_true, if_false] at hr
    cases hr
    intro t ht
    have hnd : (flat K g.ks).Nodup := (List.nodup_append.1 hi.nodup).2.1
    have hv := (eraseScan_spec hK he hi.val hnd).1
    exact sweep_nonempty hK hv t ht

theorem run_noEmpty (hK : K.Lawful) (hF : K.ForcedPure) (S : Sizing) {n : Nat} :
    ∀ {ops : List Op} {g : DK K}, OpsInRange n ops → Quiet K S n ops → run K S n ops = .ok g →
      g.NoEmptyTree := by
  intro ops
  induction ops using List.reverseRecOn with
  | nil =>
    intro g _ _ hr
    obtain ⟨rfl, _⟩ := run_nil hr
    intro t ht
    simp [init, List.mem_replicate] at ht
  | append_singleton ops o ih =>
    intro g' ho hq hr
    obtain ⟨g, h1, h2⟩ := run_snoc_ok S hr
    obtain ⟨hx, hnv⟩ := run_exact hK hF S (OpsInRange.of_append ho) (Quiet.of_append hq) h1
    have hn := ih (OpsInRange.of_append ho) (Quiet.of_append hq) h1
    have hl := OpsInRange.last ho
    rw [← hnv] at hl
    cases o with
    | add e => exact NoEmptyTree.addEdge hK hF S hx.inv hn hl h2
    | del e => exact NoEmptyTree.delEdge_quiet hK S hx.inv hn hl (hq ops e [] rfl g h1) h2

/-- C10 on histories without reorganisation that leave no erased slot in the buffer, against the
specification.  Missing: as in `C10_edges_partial`. -/
theorem C10_quiet_partial (hK : K.Lawful) (hF : K.ForcedPure) (S : Sizing) {n : Nat} (hn : n ≤ 9999999)
    (h0 : n ≠ 0) {ops : List Op} {g : DK K} (ho : OpsInRange n ops) (hq : Quiet K S n ops)
    (hr : run K S n ops = .ok g) (hm : g.c0.marked = 0) :
    ∃ l, (∀ fuel, l.length < fuel → g.eAll 0 fuel = .ok l) ∧ l.Nodup ∧
      ∀ e, InRange n e → (e ∈ l ↔ specMem ops e) := by
  obtain ⟨l, a1, a2, a3⟩ := C10_edges_partial hK hF S hn ho hr h0 (run_noEmpty hK hF S ho hq hr) hm
  exact ⟨l, a1, a2, fun e he => by
    rw [a3 e he]; exact (C01_quiet_partial hK hF S ho hq hr he).2⟩

/-- C10 in full on insert-only graphs with the thresholds of the code: the first loop visits the inserted
edges, each once. -/
theorem C10_insert_only_partial (hK : K.Lawful) (hF : K.ForcedPure) {n : Nat} (h2 : 2 ≤ n)
    (hn : n ≤ 9999999) {es : List Edge} (hes : ∀ e ∈ es, InRange n e) :
    ∃ g : DK K, run K realSizing n (es.map Op.add) = .ok g ∧
      ∃ l, (∀ fuel, l.length < fuel → g.eAll 0 fuel = .ok l) ∧ l.Nodup ∧ ∀ e, e ∈ l ↔ e ∈ es := by
  obtain ⟨g, h1, hf, h3, h4⟩ := run_inserts hK hF realSizing_top h2 hes
  have ho : OpsInRange n (inserts es) := by
    intro o hoo
    obtain ⟨e, he, rfl⟩ := List.mem_map.1 hoo
    exact hes e he
  have hne := run_noEmpty hK hF realSizing ho (inserts_quiet _ _ _) h1
  have hE : slots g.c0 ++ flat K g.ks = g.edgesOf := by rw [slots_eq_live h4.inv.c0wf hf.c0m]; rfl
  refine ⟨g, h1, g.edgesOf, fun f hf' => ?_, h4.inv.nodup, h4.mem⟩
  rw [h4.inv.toWInv.eAll_eq (by omega) hne (by
      rw [hE]
      intro hc
      have := (h4.inv.range _ hc).1
      rw [h3] at this
      have h' : maxEdge.1 = 9999999 := rfl
      omega) f (by rw [hE]; exact hf'), hE]

/-- C10, used twice: two consecutive loops by reference visit the same edges. -/
def C10_twice_Full (S : Sizing) : Prop :=
  ∀ K : K2Impl, K.Lawful → K.ForcedPure → ∀ n ops (g : DK K) fuel l l' i i', OpsInRange n ops →
    run K S n ops = .ok g → g.eLoop 0 fuel = .ok (l, i) → g.eLoop i fuel = .ok (l', i') → l' = l

/-- `operator=` does not reset `_i`: with an empty buffer the second loop visits one edge only. -/
theorem C10_twice_refuted_of {S : Sizing} (hS : Agree tabSizing S 2 17) : ¬ C10_twice_Full S := by
  intro h
  obtain ⟨g, hg, h1⟩ := tab_check hS (n := 4) (ops := [.add (0, 0), .add (0, 1), .add (0, 2)])
    (f := fun g => decide (g.eLoop 0 9 = .ok ([(0, 0), (0, 1), (0, 2)], 8) ∧
      g.eLoop 8 9 = .ok ([(0, 0)], 8)))
    (by decide) (by decide)
  simp only [decide_eq_true_eq] at h1
  have := h refK2 refK2_lawful refK2_forcedPure 4 _ g 9 _ _ 8 8 (by decide) hg h1.1 h1.2
  cases this

theorem C10_twice_refuted : ¬ C10_twice_Full realSizing := C10_twice_refuted_of agree_tab_real

/-- Instance of C10: flushes and deletions from the trees, no erased buffer slot. -/
example : ∃ g : DK refK2, run refK2 realSizing 4 [.add (0, 0), .add (0, 1), .add (0, 2), .del (0, 1),
      .add (3, 3)] = .ok g ∧
    decide (g.eAll 0 9 = .ok [(3, 3), (0, 0), (0, 2)] ∧ g.c0.marked = 0) = true :=
  real_check (by decide) (by decide)

end DK2
