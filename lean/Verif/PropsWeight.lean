import Verif.PropsFloatCost
import Verif.DelayCost
/-!
# C72, C109 without counters: what the trees themselves cost

C72 counts the edges written with a counter added to `add_edge`.  Here the program is untouched; instead every tree
remembers how many edges were written to make it.  The trees a graph holds after insertions were made by everything that
was ever written, so the sum of their weights is what the counter counts.
-/

namespace DK2
open DK

variable {K : K2Impl}

/-- `K` with trees that carry a weight: the number of edges written by the constructor and by every `unionOp` that took
part in making the tree.  The answers are those of `K`. -/
@[reducible] def weigh (K : K2Impl) : K2Impl where
  T := K.T × Nat
  build es n := (K.build es n, (K.edges (K.build es n)).length)
  empty n := (K.empty n, 0)
  adj t := K.adj t.1
  adjForced t e := ((K.adjForced t.1 e).1, (K.adjForced t.1 e).2, t.2)
  erase t e := ((K.erase t.1 e).1, (K.erase t.1 e).2, t.2)
  union a b := (K.union a.1 b.1, a.2 + b.2 + (K.edges (K.union a.1 b.1)).length)
  total t := K.total t.1
  marked t := K.marked t.1
  edges t := K.edges t.1
  neigh t := K.neigh t.1
  valid n t := K.valid n t.1

theorem weigh_lawful (hK : K.Lawful) : (weigh K).Lawful where
  build_valid := hK.build_valid
  build_edges := hK.build_edges
  build_marked := hK.build_marked
  empty_valid := hK.empty_valid
  empty_edges := hK.empty_edges
  edges_nodup n t := hK.edges_nodup n t.1
  edges_range n t := hK.edges_range n t.1
  total_eq n t := hK.total_eq n t.1
  adj_iff n t := hK.adj_iff n t.1
  neigh_iff n t := hK.neigh_iff n t.1
  neigh_nodup n t := hK.neigh_nodup n t.1
  erase_valid n t := hK.erase_valid n t.1
  erase_fst n t := hK.erase_fst n t.1
  erase_edges n t := hK.erase_edges n t.1
  union_valid n a b := hK.union_valid n a.1 b.1
  union_edges n a b := hK.union_edges n a.1 b.1
  union_marked n a b := hK.union_marked n a.1 b.1
  forced_valid n t := hK.forced_valid n t.1
  forced_true n t := hK.forced_true n t.1
  forced_false n t e h1 h2 h3 := by
    obtain ⟨a, b⟩ := hK.forced_false n t.1 e h1 h2 h3
    exact ⟨a, Prod.ext b rfl⟩

theorem weigh_forcedPure (hF : K.ForcedPure) : (weigh K).ForcedPure := by
  intro t e
  have := hF t.1 e
  show ((K.adjForced t.1 e).1, (K.adjForced t.1 e).2, t.2) = (K.adj t.1 e, t)
  rw [this]

/-- The weight of the trees in `k_collection`. -/
def weight (ks : List (Option (weigh K).T)) : Nat := (ks.map fun o => o.elim 0 (·.2)).sum

theorem weight_merge : ∀ (n : Nat) (t : (weigh K).T) (ks : List (Option (weigh K).T)),
    (mergeUpTo (weigh K) n t ks).1.2 + weight (mergeUpTo (weigh K) n t ks).2 =
      t.2 + weight ks + mergeCost (weigh K) n t ks
  | 0, t, ks => by simp [mergeUpTo, mergeCost]
  | _ + 1, t, [] => by simp [mergeUpTo, mergeCost]
  | n + 1, t, none :: ks => by
    have ih := weight_merge n t ks
    simp only [mergeUpTo, mergeCost]
    unfold weight at *
    simp only [List.map_cons, List.sum_cons, Option.elim_none] at *
    omega
  | n + 1, t, some u :: ks => by
    have ih := weight_merge n ((weigh K).union t u) ks
    simp only [mergeUpTo, mergeCost]
    unfold weight at *
    simp only [List.map_cons, List.sum_cons, Option.elim_none, Option.elim_some] at *
    omega

theorem weight_set {ks : List (Option (weigh K).T)} {i : Nat} (h : ks[i]? = some none) (t : (weigh K).T) :
    weight (ks.set i (some t)) = weight ks + t.2 := by
  induction ks generalizing i with
  | nil => simp at h
  | cons o ks ih =>
    cases i with
    | zero =>
      simp only [List.getElem?_cons_zero, Option.some.injEq] at h
      subst h
      simp [weight]; omega
    | succ i =>
      have := ih (i := i) (by simpa using h)
      unfold weight at *
      simp only [List.set_cons_succ, List.map_cons, List.sum_cons] at *
      omega

/-- The counter of one insertion is what the trees became heavier by. -/
theorem addEdgeC_weight (hF : K.ForcedPure) {S : Sizing} {g g' : DK (weigh K)} {e : Edge} {w c : Nat}
    (hr : g.addEdgeC S e = .ok (g', w, c)) : weight g'.ks = weight g.ks + w := by
  unfold addEdgeC at hr
  rw [containsForced_pure (weigh_forcedPure hF)] at hr
  obtain ⟨r, h1, hr⟩ := Res.bind_eq_ok.1 hr
  obtain ⟨b, h1, h2⟩ := Res.bind_eq_ok.1 h1
  simp only [Res.ok.injEq] at h2
  subst h2
  simp only at hr
  by_cases hb : b = true
  · simp only [hb, if_true, Res.ok.injEq, Prod.mk.injEq] at hr
    obtain ⟨rfl, rfl, rfl⟩ := hr
    rfl
  rw [if_neg hb] at hr
  by_cases hlt : g.c0.size < S.maxsz (max g.nv g.nTotal) 0
  · rw [if_pos hlt] at hr
    obtain ⟨c', _, hr⟩ := Res.bind_eq_ok.1 hr
    simp only [Res.ok.injEq, Prod.mk.injEq] at hr
    obtain ⟨rfl, rfl, rfl⟩ := hr
    rfl
  rw [if_neg hlt] at hr
  cases hs : selectLevel (weigh K) S (max g.nv g.nTotal) g.ks 0 (S.maxsz (max g.nv g.nTotal) 0) with
  | none => rw [hs] at hr; cases hr
  | some i =>
    rw [hs] at hr
    obtain ⟨conv, _, hr⟩ := Res.bind_eq_ok.1 hr
    obtain ⟨c', _, hr⟩ := Res.bind_eq_ok.1 hr
    simp only [Res.ok.injEq, Prod.mk.injEq] at hr
    obtain ⟨rfl, rfl, rfl⟩ := hr
    have hlt' := (selectLevel_lt S _ _ _ _ _ hs).2
    rw [Nat.zero_add] at hlt'
    have hm := weight_merge (i + 1) ((weigh K).build (conv ++ [e]) g.nv) g.ks
    simp only
    rw [weight_set]
    · have fin : ∀ a b t k x : Nat, a + b = t + k + x → b + a = k + (t + x) := by omega
      exact fin _ _ _ _ _ hm
    · rw [mergeUpTo_snd]
      simp [hlt']

theorem insertsC_weight (hF : K.ForcedPure) {S : Sizing} : ∀ (es : List Edge) {g g' : DK (weigh K)} {w c : Nat},
    insertsC S g es = .ok (g', w, c) → weight g'.ks = weight g.ks + w
  | [], g, g', w, c, h => by
    simp only [insertsC, Res.ok.injEq, Prod.mk.injEq] at h
    obtain ⟨rfl, rfl, rfl⟩ := h
    rfl
  | e :: es, g, g', w, c, h => by
    obtain ⟨⟨g1, w1, c1⟩, h1, h⟩ := Res.bind_eq_ok.1 h
    obtain ⟨⟨g2, w2, c2⟩, h2, h⟩ := Res.bind_eq_ok.1 h
    simp only [Res.ok.injEq, Prod.mk.injEq] at h
    obtain ⟨rfl, rfl, rfl⟩ := h
    have a := addEdgeC_weight hF h1
    have b : weight g2.ks = weight g1.ks + w2 := insertsC_weight hF es h2
    show weight g2.ks = weight g.ks + (w1 + w2)
    omega

theorem runC_weight (hF : K.ForcedPure) {S : Sizing} {n : Nat} {es : List Edge} {g : DK (weigh K)} {w c : Nat}
    (h : runC (weigh K) S n es = .ok (g, w, c)) : weight g.ks = w := by
  obtain ⟨g0, h0, h⟩ := Res.bind_eq_ok.1 h
  have := insertsC_weight hF es h
  have h1 : weight g0.ks = 0 := by
    unfold create at h0
    split at h0
    · cases h0
    · simp only [Res.ok.injEq] at h0
      subst h0
      simp [init, weight]
  omega

/-- C72 about the program itself: after any insertions into a `DKtree` with `n ≥ 8` vertices, what was written to make the
trees it holds is at most `144·(log2 N)^(1/4)` edges per insertion. -/
theorem C72_weight (hK : K.Lawful) (hF : K.ForcedPure) {n : Nat} (hn : 8 ≤ n) {es : List Edge}
    (hes : ∀ e ∈ es, InRange n e) :
    ∃ g : DK (weigh K), run (weigh K) realSizing n (es.map Op.add) = .ok g ∧
      (weight g.ks : ℝ) ≤ 144 * (Real.logb 2 (max n es.length : Nat)) ^ (1 / 4 : ℝ) * es.length := by
  obtain ⟨g, w, c, h1, h2, h3, _⟩ := C72_amortized (weigh_lawful hK) (weigh_forcedPure hF) hn hes
  rw [← runC_weight hF h1] at h3
  exact ⟨g, h2, h3⟩

/-- C109 about the program itself. -/
theorem C109_weight (hK : K.Lawful) (hF : K.ForcedPure) {A : FloatLib} (hA : A.Accurate) {n : Nat} (hn : 8 ≤ n)
    {es : List Edge} (hes : ∀ e ∈ es, InRange n e) (hsz : max n es.length < 2 ^ 52) :
    ∃ g : DK (weigh K), run (weigh K) (floatSizing A) n (es.map Op.add) = .ok g ∧
      (weight g.ks : ℝ) ≤ 288 * (Real.logb 2 (max n es.length : Nat)) ^ (1 / 4 : ℝ) * es.length := by
  obtain ⟨g, w, c, h1, h2, h3, _⟩ := C109_amortized hA (weigh_lawful hK) (weigh_forcedPure hF) hn hes hsz
  rw [← runC_weight hF h1] at h3
  exact ⟨g, h2, h3⟩

/-- Instance: 10 insertions on 8 vertices; the trees held at the end took 26 written edges to make. -/
example : ∃ g : DK (weigh refK2), run (weigh refK2) realSizing 8
    (inserts [(0, 1), (0, 2), (0, 3), (0, 4), (0, 5), (1, 0), (1, 1), (1, 2), (1, 3), (1, 4)]) = .ok g ∧
    weight g.ks = 26 := by
  have hc : check (run (weigh refK2) hybSizing 8
    (inserts [(0, 1), (0, 2), (0, 3), (0, 4), (0, 5), (1, 0), (1, 1), (1, 2), (1, 3), (1, 4)]))
      (fun g => decide (weight g.ks = 26)) = true := by decide +kernel
  rw [← realSizing_eq_hyb] at hc
  obtain ⟨g, hg, hc⟩ := check_iff.1 hc
  exact ⟨g, hg, of_decide_eq_true hc⟩

/-- A library and a history that meet the hypotheses of C109. -/
example : ∃ g : DK (weigh refK2), run (weigh refK2) (floatSizing exactLib) 10 (inserts [(0, 1), (9, 9), (0, 1), (3, 2)]) =
    .ok g ∧ (weight g.ks : ℝ) ≤ 288 * (Real.logb 2 (10 : Nat)) ^ (1 / 4 : ℝ) * 4 :=
  C109_weight refK2_lawful refK2_forcedPure exactLib_accurate (n := 10) (es := [(0, 1), (9, 9), (0, 1), (3, 2)])
    (by norm_num) (by decide) (by decide)

/-! ## `DKtree_delay` -/

namespace DKD

/-- The weight of a tree, 0 for a null pointer. -/
def ow (o : Option (weigh K).T) : Nat := o.elim 0 (·.2)

/-- The weight of the trees a `DKtree_delay` holds. -/
def weight (d : DKD (weigh K)) : Nat := DK2.weight d.g.ks + ow d.tmp

theorem weight_put {ks : List (Option (weigh K).T)} {i : Nat} {o : Option (weigh K).T} (h : ks[i]? = some o)
    (p : Option (weigh K).T) :
    DK2.weight (ks.set i p) + ow o = DK2.weight ks + ow p := by
  induction ks generalizing i with
  | nil => simp at h
  | cons a ks ih =>
    cases i with
    | zero =>
      simp only [List.getElem?_cons_zero, Option.some.injEq] at h
      subst h
      simp only [DK2.weight, ow, List.set_cons_zero, List.map_cons, List.sum_cons]; omega
    | succ i =>
      have := ih (i := i) (by simpa using h)
      unfold DK2.weight at *
      simp only [List.set_cons_succ, List.map_cons, List.sum_cons] at *
      omega

theorem weight_put_le {ks : List (Option (weigh K).T)} {i : Nat} (h : i < ks.length) (p : Option (weigh K).T) :
    DK2.weight (ks.set i p) ≤ DK2.weight ks + ow p := by
  have := weight_put (List.getElem?_eq_getElem h) p
  omega

theorem unionMove_weight {d d' : DKD (weigh K)} (h : d.unionMove = .ok d') : weight d' ≤ weight d := by
  unfold unionMove at h
  split at h
  · obtain ⟨p, h1, h⟩ := Res.bind_eq_ok.1 h
    obtain ⟨ks, h2, h⟩ := Res.bind_eq_ok.1 h
    obtain ⟨ks', h3, h⟩ := Res.bind_eq_ok.1 h
    simp only [Res.ok.injEq] at h
    subst h
    rw [wr_eq_ok] at h2 h3
    rw [rd_eq_ok] at h1
    have h4 : ks[d.uprev]? = some p := by
      rw [h2.2, List.getElem?_set]
      split
      · rename_i he; rw [if_pos h2.1]
      · exact h1
    have a : DK2.weight (ks.set d.uprev none) + ow p = DK2.weight ks + 0 := weight_put h4 none
    have b := weight_put_le h2.1 p
    rw [← h2.2] at b
    rw [← h3.2] at a
    have c : DK2.weight ks' ≤ DK2.weight d.g.ks := by omega
    exact Nat.add_le_add_right c _
  · obtain ⟨ks, h2, h⟩ := Res.bind_eq_ok.1 h
    simp only [Res.ok.injEq] at h
    subst h
    rw [wr_eq_ok] at h2
    have b := weight_put_le h2.1 d.tmp
    rw [← h2.2] at b
    show DK2.weight ks + 0 ≤ DK2.weight d.g.ks + _
    omega

theorem unionLoopC_weight : ∀ (f : Nat) {d : DKD (weigh K)} {r : DKD (weigh K) × Nat × Nat},
    unionLoopC f d = .ok r → weight r.1 ≤ weight d + r.2.2
  | 0, d, r, h => by
    unfold unionLoopC at h
    obtain ⟨d', h1, h⟩ := Res.bind_eq_ok.1 h
    cases h
    exact unionMove_weight h1
  | f + 1, d, r, h => by
    unfold unionLoopC at h
    obtain ⟨o, ho, h⟩ := Res.bind_eq_ok.1 h
    rw [rd_eq_ok] at ho
    cases o with
    | none => exact unionLoopC_weight f (d := { d with ui := d.ui + 1 }) h
    | some t =>
      simp only at h
      split at h
      · obtain ⟨p, h1, h⟩ := Res.bind_eq_ok.1 h
        obtain ⟨u, h2, h⟩ := Res.bind_eq_ok.1 h
        obtain ⟨ks, h3, h⟩ := Res.bind_eq_ok.1 h
        obtain ⟨ks', h4, h⟩ := Res.bind_eq_ok.1 h
        cases h
        rw [wr_eq_ok] at h3 h4
        rw [rd_eq_ok] at h1
        rw [use_eq_ok] at h2
        subst h2
        have a := weight_put ho (some ((weigh K).union t u))
        rw [← h3.2] at a
        have h5 : ∃ q, ks[d.uprev]? = some (some q) ∧ u.2 ≤ q.2 := by
          rw [h3.2, List.getElem?_set]
          split
          · rename_i he
            rw [if_pos h3.1]
            exact ⟨_, rfl, by show u.2 ≤ t.2 + u.2 + _; omega⟩
          · exact ⟨u, h1, Nat.le_refl _⟩
        obtain ⟨q, h5, h6⟩ := h5
        have b : DK2.weight (ks.set d.uprev none) + q.2 = DK2.weight ks + 0 := weight_put h5 none
        rw [← h4.2] at b
        have e : ((weigh K).union t u).2 = t.2 + u.2 + ((weigh K).edges ((weigh K).union t u)).length := rfl
        have fin : ∀ k' x k l w p q : Nat, k' + q = x → x + t.2 = k + w → w = t.2 + u.2 + l → u.2 ≤ q →
            k' + p ≤ k + p + l := by omega
        exact fin _ _ _ _ _ _ _ b a e h6
      · obtain ⟨u, h2, h⟩ := Res.bind_eq_ok.1 h
        obtain ⟨ks, h3, h⟩ := Res.bind_eq_ok.1 h
        cases h
        rw [wr_eq_ok] at h3
        rw [use_eq_ok] at h2
        have a := weight_put ho (some ((weigh K).union t u))
        rw [← h3.2] at a
        have e : ((weigh K).union t u).2 = t.2 + u.2 + ((weigh K).edges ((weigh K).union t u)).length := rfl
        have e2 : ow d.tmp = u.2 := by rw [h2]; rfl
        have fin : ∀ x k l w p : Nat, x + t.2 = k + w → w = t.2 + u.2 + l → p = u.2 → x + 0 ≤ k + p + l := by omega
        exact fin _ _ _ _ _ a e e2

/-- The counter of one insertion is at least what the trees became heavier by. -/
theorem addEdgeC_weight {nd : Bool} {S : Sizing} {d : DKD (weigh K)} {e : Edge} {r : DKD (weigh K) × Nat × Nat}
    (h : d.addEdgeC nd S e = .ok r) : weight r.1 ≤ weight d + r.2.2 := by
  unfold addEdgeC at h
  obtain ⟨q, h1, h⟩ := Res.bind_eq_ok.1 h
  obtain ⟨b, h2, h⟩ := Res.bind_eq_ok.1 h
  have hq : weight q.1 ≤ weight d + q.2.2 := by
    unfold preC at h1
    split at h1
    · cases h1; simp
    · exact unionLoopC_weight _ h1
  split at h
  · cases h; exact hq
  split at h
  · obtain ⟨c, _, h⟩ := Res.bind_eq_ok.1 h
    cases h; exact hq
  split at h
  · obtain ⟨s, h3, h⟩ := Res.bind_eq_ok.1 h
    cases h
    unfold flushC at h3
    split at h3
    · cases h3
    · obtain ⟨conv, _, h3⟩ := Res.bind_eq_ok.1 h3
      obtain ⟨c, _, h3⟩ := Res.bind_eq_ok.1 h3
      obtain ⟨v, h4, h3⟩ := Res.bind_eq_ok.1 h3
      cases h3
      have a := unionLoopC_weight _ h4
      have fin : ∀ w v0 t y qw dw q2 x : Nat, w ≤ v0 + t + y → v0 + x = qw → qw ≤ dw + q2 → w ≤ dw + (q2 + (t + y)) := by
        omega
      exact fin _ _ _ _ _ _ _ _ a rfl hq
  · split at h
    · cases h; exact hq
    · cases h

end DKD

/-- C76 about the program itself: after any insertion history of a `DKtree_delay`, one more `add_edge` writes at most
`3·(m+1)` edges into the trees the graph then holds, `m = get_number_edges()` before; on 256 vertices or more at most
`2·(m+1)`, and it returns. -/
theorem C76_weight (hK : K.Lawful) (nd : Bool) :
    (∀ (S : Sizing), S.Top → ∀ (n : Nat), 2 ≤ n → ∀ (es : List Edge), (∀ e ∈ es, InRange n e) →
      ∀ d : DKD (weigh K), DKD.run nd (weigh K) S n (inserts es) = .ok d → ∀ e, InRange n e → ∀ d',
        d.addEdge nd S e = .ok d' → d'.weight ≤ d.weight + 3 * (d.numberEdges + 1)) ∧
    (∀ (n : Nat), 256 ≤ n → ∀ (es : List Edge), (∀ e ∈ es, InRange n e) →
      ∃ d : DKD (weigh K), DKD.run nd (weigh K) realSizing n (inserts es) = .ok d ∧ ∀ e, InRange n e →
        ∃ d', d.addEdge nd realSizing e = .ok d' ∧ d'.weight ≤ d.weight + 2 * (d.numberEdges + 1)) := by
  obtain ⟨_, h1, h2⟩ := C76_work (weigh_lawful hK) nd
  refine ⟨?_, ?_⟩
  · intro S hT n hn es hes d hd e he d' hd'
    rw [← DKD.addEdgeC_fst] at hd'
    obtain ⟨r, hr, hd'⟩ := Res.bind_eq_ok.1 hd'
    cases hd'
    have a := h1 S hT n hn es hes d hd e he r hr
    have b := DKD.addEdgeC_weight hr
    omega
  · intro n hn es hes
    obtain ⟨d, hd, h⟩ := h2 n hn es hes
    refine ⟨d, hd, fun e he => ?_⟩
    obtain ⟨r, hr, _, a⟩ := h e he
    have b := DKD.addEdgeC_weight hr
    refine ⟨r.1, ?_, by omega⟩
    rw [← DKD.addEdgeC_fst, hr]
    rfl

end DK2
