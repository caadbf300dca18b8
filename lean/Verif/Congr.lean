import Verif.Hist
/-!
# A run only consults the thresholds at the sizes it reaches

Used to evaluate concrete histories under `realSizing` through the table `tabSizing`.
-/

namespace DK2

/-- Two sizings agree on all values consulted by graphs with `lo ≤ n_vertices` and at most `hi`
edges. -/
structure Agree (S S' : Sizing) (lo hi : Nat) : Prop where
  maxsz : ∀ m i, lo ≤ m → m ≤ hi → i ≤ RS → S.maxsz m i = S'.maxsz m i
  rebuild : ∀ n k, n ≤ hi → S.rebuild k n = S'.rebuild k n

theorem agree_tab_real : Agree tabSizing realSizing 2 17 where
  maxsz _ _ h1 h2 h3 := tab_maxsz h1 h2 h3
  rebuild _ k h := tab_rebuild h k

namespace DK
variable {K : K2Impl}

theorem selectLevel_congr {S S' : Sizing} {m : Nat} (h : ∀ i, i ≤ RS → S.maxsz m i = S'.maxsz m i) :
    ∀ (ks : List (Option K.T)) (i acc : Nat), i + ks.length ≤ RS →
      selectLevel K S m ks i acc = selectLevel K S' m ks i acc := by
  intro ks
  induction ks with
  | nil => intro i acc _; rfl
  | cons o ks ih =>
    intro i acc hl
    simp at hl
    have h1 := h (i + 1) (by omega)
    cases o with
    | none => simp only [selectLevel, h1, ih (i + 1) acc (by omega)]
    | some t => simp only [selectLevel, h1, ih (i + 1) (acc + K.total t) (by omega)]

theorem addEdge_congr (hK : K.Lawful) (hF : K.ForcedPure) {S S' : Sizing} {lo hi : Nat}
    (ha : Agree S S' lo hi) {g : DK K} (h : g.Inv) (h1 : lo ≤ g.nv) (h2 : g.nv ≤ hi)
    (h3 : g.nTotal ≤ hi) {e : Edge} (he : InRange g.nv e) : g.addEdge S e = g.addEdge S' e := by
  unfold DK.addEdge
  rw [containsForced_pure hF, h.contains_eq hK he]
  have hm : ∀ i, i ≤ RS → S.maxsz (max g.nv g.nTotal) i = S'.maxsz (max g.nv g.nTotal) i :=
    fun i hi' => ha.maxsz _ _ (by omega) (by omega) hi'
  have h0 := hm 0 (by simp)
  have hsel := selectLevel_congr (K := K) hm g.ks 0 (S'.maxsz (max g.nv g.nTotal) 0) (by
    rw [h.len]; simp)
  have hins : g.c0.insert S e g.nTotal = g.c0.insert S' e g.nTotal := by
    unfold C0.insert
    rw [h.c0nv, h0]
  simp only [Res.ok_bind, h0, hsel, hins]

theorem rebuildLevel_congr {S S' : Sizing} {m n : Nat} (h : ∀ i, i ≤ RS → S.maxsz m i = S'.maxsz m i) :
    rebuildLevel S m n = rebuildLevel S' m n := by
  unfold rebuildLevel
  congr 1
  have : ∀ l : List Nat, (∀ i ∈ l, i < RS) →
      l.find? (fun i => decide (S.maxsz m (i + 1) > n)) = l.find? (fun i => decide (S'.maxsz m (i + 1) > n)) := by
    intro l
    induction l with
    | nil => intro _; rfl
    | cons a l ih =>
      intro hl
      rw [List.find?_cons, List.find?_cons, h (a + 1) (by have := hl a (by simp); omega),
        ih (fun i hi => hl i (by simp [hi]))]
  exact this _ (by simp)

theorem rebuild_congr (hK : K.Lawful) (hF : K.ForcedPure) {S S' : Sizing} {lo hi : Nat}
    (ha : Agree S S' lo hi) {g : DK K} (h : g.Inv) (h1 : lo ≤ g.nv) (h2 : g.nv ≤ hi)
    (h3 : g.nTotal ≤ hi) (h4 : 2 ≤ g.nv) : g.rebuild S = g.rebuild S' := by
  have hm : ∀ i, i ≤ RS → S.maxsz (max g.nv g.nTotal) i = S'.maxsz (max g.nv g.nTotal) i :=
    fun i hi' => ha.maxsz _ _ (by omega) (by omega) hi'
  have h11 : InRange g.nv (1, 1) := ⟨by simp; omega, by simp; omega⟩
  unfold DK.rebuild rebuildPrep
  rw [rebuildLevel_congr hm, addEdge_congr hK hF ha h h1 h2 h3 h11]

theorem step_congr (hK : K.Lawful) (hF : K.ForcedPure) {S S' : Sizing} {lo hi : Nat}
    (ha : Agree S S' lo hi) {g : DK K} {G : Edge → Prop} (h : Track g G) (h1 : lo ≤ g.nv)
    (h2 : g.nv ≤ hi) (h3 : g.nTotal ≤ hi) (h4 : 2 ≤ g.nv) {o : Op} (ho : InRange g.nv o.edge) :
    g.step S o = g.step S' o := by
  cases o with
  | add e => exact addEdge_congr hK hF ha h.inv h1 h2 h3 ho
  | del e =>
    have ho' : InRange g.nv e := ho
    show g.delEdge S e = g.delEdge S' e
    unfold DK.delEdge
    obtain ⟨c', a1, a2, a3, a4, a5, a6⟩ := h.inv.c0wf.erase_ok e
    rw [a1]
    simp only [Res.ok_bind]
    by_cases hl : e ∈ g.c0.live
    · simp [hl]
    · simp only [hl, decide_false, Bool.false_eq_true, if_false]
      have hfil : g.c0.live.filter (fun e' => decide (e' ≠ e)) = g.c0.live := by
        rw [List.filter_eq_self]
        intro a ha
        have : a ≠ e := fun hh => hl (hh ▸ ha)
        simpa using this
      have hedges : edgesOf { g with c0 := c' } = g.edgesOf := by simp only [edgesOf, a3, hfil]
      have hi' : Inv { g with c0 := c' } := by
        refine ⟨⟨a2, by simp [a6, h.inv.c0nv], h.inv.len, h.inv.val, h.inv.maxR_lt, ?_⟩, ?_⟩
        · rw [hedges]; exact h.inv.range
        · rw [hedges]; exact h.inv.nodup
      have hl' : e ∉ ({ g with c0 := c' } : DK K).c0.live := by simp only [a3, hfil]; exact hl
      obtain ⟨b1, b2, b3, b4, b5, b6, b7⟩ := hi'.afterErase hK ho' hl'
      rw [hedges] at b4
      have hnt : (({ g with c0 := c' } : DK K).afterErase e).2.nTotal ≤ hi := by
        rw [b4]
        split
        · rename_i hm
          have : 0 < g.edgesOf.length := List.length_pos_of_mem hm
          have := h.cnt
          simp only
          unfold decr; rw [if_neg (by omega)]; omega
        · simpa using h3
      have b2' : (({ g with c0 := c' } : DK K).afterErase e).2.nv = g.nv := b2
      rw [ha.rebuild _ _ hnt, rebuild_congr hK hF ha b1 (by rw [b2']; exact h1) (by rw [b2']; exact h2)
        hnt (by rw [b2']; exact h4)]

theorem step_nTotal (hK : K.Lawful) (hF : K.ForcedPure) (S : Sizing) {g g' : DK K} {G : Edge → Prop}
    (h : Track g G) (h4 : 2 ≤ g.nv) {o : Op} (ho : InRange g.nv o.edge) (hr : g.step S o = .ok g') :
    g'.nTotal ≤ g.nTotal + 1 := by
  cases o with
  | add e =>
    obtain ⟨a1, a2, a3, a4, a5⟩ := h.inv.addEdge hK hF S ho hr
    by_cases hm : e ∈ g.edgesOf
    · rw [a4 hm]; omega
    · rw [a5 hm]
  | del e =>
    have ho' : InRange g.nv e := ho
    have hd : (if e ∈ g.edgesOf then decr g.nTotal else g.nTotal) ≤ g.nTotal := by
      split
      · rename_i hm
        have : 0 < g.edgesOf.length := List.length_pos_of_mem hm
        have := h.cnt
        unfold decr; rw [if_neg (by omega)]; omega
      · omega
    by_cases hq : g.rebuilds S e = true
    · obtain ⟨b1, b2, b3, b4, b5⟩ := h.inv.delEdge_rebuild hK hF S ho' h4 hq hr
      rw [b4]
      have : (if g.c0.live = [] then 1 else 0) ≤ 1 := by split <;> omega
      omega
    · obtain ⟨g1, b0, b1, b2, b3, b4, b5⟩ := h.inv.delEdge_quiet hK S ho' (by simpa using hq)
      have hr' : g.delEdge S e = .ok g' := hr
      rw [b0] at hr'
      cases hr'
      omega

/-- Runs under agreeing sizings are equal. -/
theorem runFrom_congr (hK : K.Lawful) (hF : K.ForcedPure) {S S' : Sizing} {lo hi : Nat}
    (ha : Agree S S' lo hi) : ∀ (ops : List Op) {g : DK K} {G : Edge → Prop}, Track g G → lo ≤ g.nv →
      g.nv ≤ hi → 2 ≤ g.nv → g.nTotal + ops.length ≤ hi + 1 → OpsInRange g.nv ops →
      runFrom S g ops = runFrom S' g ops := by
  intro ops
  induction ops with
  | nil => intros; rfl
  | cons o ops ih =>
    intro g G h h1 h2 h4 h3 hops
    have ho : InRange g.nv o.edge := hops o (by simp)
    simp at h3
    have hs := step_congr hK hF ha h h1 h2 (by omega) h4 ho
    simp only [runFrom]
    rw [← hs]
    cases hr : g.step S o with
    | ok g' =>
      simp only [Res.ok_bind]
      obtain ⟨t, hnv⟩ := h.step hK hF S ho h4 hr
      have := step_nTotal hK hF S h h4 ho hr
      exact ih t (by omega) (by omega) (by omega) (by omega) (by
        rw [hnv]; exact fun o' ho' => hops o' (by simp [ho']))
    | _ => rfl

/-- A graph with `2..17` vertices and histories of at most 18 calls run the same under the table and
under any thresholds that agree with it. -/
theorem run_tab (hK : K.Lawful) (hF : K.ForcedPure) {S : Sizing} (hS : Agree tabSizing S 2 17) {n : Nat}
    (h1 : 2 ≤ n) (h2 : n ≤ 17) {ops : List Op} (hl : ops.length ≤ 18) (hops : OpsInRange n ops) :
    run K S n ops = run K tabSizing n ops := by
  have hc : (init K S n) = (init K tabSizing n) := by
    unfold init C0.new
    rw [hS.maxsz _ _ h1 h2 (by omega)]
  unfold run create
  rw [if_neg (by omega), if_neg (by omega), hc]
  simp only [Res.ok_bind]
  symm
  refine runFrom_congr hK hF hS ops (g := init K tabSizing n) (G := fun _ => False)
    ⟨init_inv _ n, ?_, ?_, ?_⟩ h1 h2 h1 ?_ hops
  · intro e _; simp [init_edges]
  · intro h; simp [init_edges] at h
  · simp [init_edges]
  · show 0 + _ ≤ _; omega

/-- The same under the real formulas. -/
theorem run_tab_real (hK : K.Lawful) (hF : K.ForcedPure) {n : Nat} (h1 : 2 ≤ n) (h2 : n ≤ 17)
    {ops : List Op} (hl : ops.length ≤ 18) (hops : OpsInRange n ops) :
    run K realSizing n ops = run K tabSizing n ops :=
  run_tab hK hF agree_tab_real h1 h2 hl hops

end DK
end DK2
