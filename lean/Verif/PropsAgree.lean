import Verif.PropsDelay
import Verif.PropsBg
import Verif.PropsMunroLate
import Verif.PropsIter
/-!
# The answers do not depend on the representation (C81)

Two graphs that received the same set of edges give the same answers, whatever the arity or implementation of their
trees, the rounding of the threshold formulas, and the class.
-/

namespace DK2
open DK

variable {K K' : K2Impl}

/-- The edge loop of an insert-only graph, for every threshold function with the right top level. -/
theorem insert_edges (hK : K.Lawful) (hF : K.ForcedPure) (S : Sizing) {n : Nat} (h2 : 2 ≤ n)
    (hn : n ≤ 9999999) {es : List Edge} (hes : ∀ e ∈ es, InRange n e) {g : DK K} (h1 : run K S n (inserts es) = .ok g)
    (hf : g.Fresh) (h3 : g.nv = n) (h4 : Exact g (fun e => e ∈ es)) :
    ∃ l, (∀ fuel, l.length < fuel → g.eAll 0 fuel = .ok l) ∧ l.Nodup ∧ ∀ e, e ∈ l ↔ e ∈ es := by
  have ho : OpsInRange n (inserts es) := by
    intro o hoo
    obtain ⟨e, he, rfl⟩ := List.mem_map.1 hoo
    exact hes e he
  have hne := run_noEmpty hK hF S ho (inserts_quiet _ _ _) h1
  have hE : slots g.c0 ++ flat K g.ks = g.edgesOf := by rw [slots_eq_live h4.inv.c0wf hf.c0m]; rfl
  refine ⟨g.edgesOf, fun f hf' => ?_, h4.inv.nodup, h4.mem⟩
  rw [h4.inv.toWInv.eAll_eq (by omega) hne (by
      rw [hE]
      intro hc
      have := (h4.inv.range _ hc).1
      rw [h3] at this
      have h' : maxEdge.1 = 9999999 := rfl
      omega) f (by rw [hE]; exact hf'), hE]

/-- `DKtree`: two implementations of the trees, two roundings of the thresholds, two orders of insertion. -/
theorem C81_dktree (hK : K.Lawful) (hF : K.ForcedPure) (hK' : K'.Lawful) (hF' : K'.ForcedPure) {S S' : Sizing}
    (hT : S.Top) (hT' : S'.Top) {n : Nat} (h2 : 2 ≤ n) {es es' : List Edge} (hes : ∀ e ∈ es, InRange n e)
    (hsame : ∀ e, e ∈ es ↔ e ∈ es') :
    ∃ (g : DK K) (g' : DK K'), run K S n (es.map Op.add) = .ok g ∧ run K' S' n (es'.map Op.add) = .ok g' ∧
      (∀ e, InRange n e → ∃ b, g.contains e = .ok b ∧ g'.contains e = .ok b) ∧
      g.numberEdges = g'.numberEdges ∧
      (∀ x, x < n → ∃ l l', g.listNeighbour x = .ok l ∧ g'.listNeighbour x = .ok l' ∧ l.Perm l') ∧
      (n ≤ 9999999 → ∃ l l', l.Perm l' ∧ (∀ fuel, l.length < fuel → g.eAll 0 fuel = .ok l) ∧
        ∀ fuel, l'.length < fuel → g'.eAll 0 fuel = .ok l') := by
  have hes' : ∀ e ∈ es', InRange n e := fun e he => hes e ((hsame e).2 he)
  obtain ⟨g, a1, a2, a3, a4⟩ := run_inserts hK hF hT h2 hes
  obtain ⟨g', b1, b2, b3, b4⟩ := run_inserts hK' hF' hT' h2 hes'
  refine ⟨g, g', a1, b1, ?_, ?_, ?_, ?_⟩
  · intro e he
    refine ⟨decide (e ∈ es), ?_, ?_⟩
    · rw [a4.inv.contains_eq hK (by rw [a3]; exact he)]
      congr 1; exact decide_eq_decide.2 (a4.mem e)
    · rw [b4.inv.contains_eq hK' (by rw [b3]; exact he)]
      congr 1; exact decide_eq_decide.2 ((b4.mem e).trans (hsame e).symm)
  · show g.nTotal = g'.nTotal
    rw [a4.cnt, b4.cnt]
    exact length_eq_of_mem_iff a4.inv.nodup b4.inv.nodup (fun e => by rw [a4.mem, b4.mem, hsame])
  · intro x hx
    obtain ⟨l, c1, c2, c3⟩ := a4.inv.listNeighbour hK a4.above (x := x) (by rw [a3]; exact hx)
    obtain ⟨l', d1, d2, d3⟩ := b4.inv.listNeighbour hK' b4.above (x := x) (by rw [b3]; exact hx)
    exact ⟨l, l', c1, d1, (List.perm_ext_iff_of_nodup c2 d2).2 (fun y => by rw [c3, d3, a4.mem, b4.mem, hsame])⟩
  · intro hn
    obtain ⟨l, c1, c2, c3⟩ := insert_edges hK hF S h2 hn hes a1 a2 a3 a4
    obtain ⟨l', d1, d2, d3⟩ := insert_edges hK' hF' S' h2 hn hes' b1 b2 b3 b4
    exact ⟨l, l', (List.perm_ext_iff_of_nodup c2 d2).2 (fun e => by rw [c3, d3, hsame]), c1, d1⟩

/-- Histories with deletions: as long as neither graph reorganises, the two agree. -/
theorem C81_history (hK : K.Lawful) (hF : K.ForcedPure) (hK' : K'.Lawful) (hF' : K'.ForcedPure) (S S' : Sizing)
    {n : Nat} {ops : List Op} {g : DK K} {g' : DK K'} (ho : OpsInRange n ops)
    (hq : Quiet K S n ops) (hq' : Quiet K' S' n ops) (hr : run K S n ops = .ok g) (hr' : run K' S' n ops = .ok g') :
    (∀ e, InRange n e → ∃ b, g.contains e = .ok b ∧ g'.contains e = .ok b) ∧ g.numberEdges = g'.numberEdges ∧
    ∀ x, x < n → ∃ l l', g.listNeighbour x = .ok l ∧ g'.listNeighbour x = .ok l' ∧ l.Perm l' := by
  obtain ⟨a4, a3⟩ := run_exact hK hF S ho hq hr
  obtain ⟨b4, b3⟩ := run_exact hK' hF' S' ho hq' hr'
  refine ⟨?_, ?_, ?_⟩
  · intro e he
    refine ⟨_, a4.inv.contains_eq hK (by rw [a3]; exact he), ?_⟩
    rw [b4.inv.contains_eq hK' (by rw [b3]; exact he)]
    congr 1; exact decide_eq_decide.2 ((b4.mem e).trans (a4.mem e).symm)
  · show g.nTotal = g'.nTotal
    rw [a4.cnt, b4.cnt]
    exact length_eq_of_mem_iff a4.inv.nodup b4.inv.nodup (fun e => by rw [a4.mem, b4.mem])
  · intro x hx
    obtain ⟨l, c1, c2, c3⟩ := a4.inv.listNeighbour hK a4.above (x := x) (by rw [a3]; exact hx)
    obtain ⟨l', d1, d2, d3⟩ := b4.inv.listNeighbour hK' b4.above (x := x) (by rw [b3]; exact hx)
    exact ⟨l, l', c1, d1, (List.perm_ext_iff_of_nodup c2 d2).2 (fun y => by rw [c3, d3, a4.mem, b4.mem])⟩

/-- `DKtree_delay` with assertions enabled agrees with `DKtree`, whether or not a merge is pending. -/
theorem C81_delay (hK : K.Lawful) (hF : K.ForcedPure) (hK' : K'.Lawful) {S S' : Sizing} (hT : S.Top) (hT' : S'.Top)
    {n : Nat} (h2 : 2 ≤ n) {es es' : List Edge} (hes : ∀ e ∈ es, InRange n e) (hsame : ∀ e, e ∈ es ↔ e ∈ es')
    {d : DKD K'} (hd : DKD.run false K' S' n (es'.map Op.add) = .ok d) :
    ∃ g : DK K, run K S n (es.map Op.add) = .ok g ∧
      (∀ e, InRange n e → ∃ b, g.contains e = .ok b ∧ d.contains e = .ok b) ∧ g.numberEdges = d.numberEdges ∧
      ∀ x, x < n → ∃ l l', g.listNeighbour x = .ok l ∧ d.listNeighbour x = .ok l' ∧ l.Perm l' := by
  have hes' : ∀ e ∈ es', InRange n e := fun e he => hes e ((hsame e).2 he)
  obtain ⟨g, a1, a2, a3, a4⟩ := run_inserts hK hF hT h2 hes
  have hA := C32_partial hK' hT' h2 hes' hd
  refine ⟨g, a1, ?_, ?_, ?_⟩
  · intro e he
    obtain ⟨b, b1, b2⟩ := hA.contains e he
    refine ⟨b, ?_, b1⟩
    rw [a4.inv.contains_eq hK (by rw [a3]; exact he)]
    congr 1
    rw [Bool.eq_iff_iff, b2, decide_eq_true_eq, a4.mem, hsame]
  · obtain ⟨l, c1, c2, c3⟩ := hA.count
    rw [c3]
    show g.nTotal = _
    rw [a4.cnt]
    exact length_eq_of_mem_iff a4.inv.nodup c1 (fun e => by rw [a4.mem, c2, hsame])
  · intro x hx
    obtain ⟨l, c1, c2, c3⟩ := a4.inv.listNeighbour hK a4.above (x := x) (by rw [a3]; exact hx)
    obtain ⟨l', d1, d2, d3⟩ := hA.neighbours x hx
    exact ⟨l, l', c1, d1, (List.perm_ext_iff_of_nodup c2 d2).2 (fun y => by rw [c3, d3, a4.mem, hsame])⟩

/-- The background variants, both classes, on every schedule: whenever no merge is pending, `contains` answers as
`DKtree` and `list_neighbour` lists the same vertices. -/
theorem C81_background (hK : K.Lawful) (hF : K.ForcedPure) (hK' : K'.Lawful) {S S' : Sizing} (hT : S.Top) (wv : Bool)
    {n : Nat} (h2 : 2 ≤ n) {es es' : List Edge} (hes : ∀ e ∈ es, InRange n e) (hsame : ∀ e, e ∈ es ↔ e ∈ es')
    {s : BG K'} {w : WPC K'.T} (hr : BG.Reach wv K' S' n (es'.map Op.add) s w) (hi : s.needs = false) :
    ∃ g : DK K, run K S n (es.map Op.add) = .ok g ∧
      (∀ e, InRange n e → ∃ b, g.contains e = .ok b ∧ Answers S' (BG.contains e) s w (fun b' => b' = b)) ∧
      ∀ x, x < n → ∃ l, g.listNeighbour x = .ok l ∧
        Answers S' (BG.listNeighbour x) s w (fun l' => ∀ y, y ∈ l' ↔ y ∈ l) := by
  have hes' : ∀ e ∈ es', InRange n e := fun e he => hes e ((hsame e).2 he)
  have ho : OpsInRange n (inserts es') := by
    intro o hoo
    obtain ⟨e, he, rfl⟩ := List.mem_map.1 hoo
    exact hes' e he
  have hng : ∀ e, ¬ Ghost (inserts es') e := by
    rintro e ⟨pre, post, h1, _⟩
    have : Op.del e ∈ inserts es' := by rw [h1]; simp
    obtain ⟨_, _, h3⟩ := List.mem_map.1 this
    cases h3
  have hsp : ∀ e, specMem (inserts es') e ↔ e ∈ es := by
    intro e; rw [specMem_iff_specRun, specRun_inserts, hsame]
  obtain ⟨g, a1, a2, a3, a4⟩ := run_inserts hK hF hT h2 hes
  obtain ⟨c1, c2⟩ := C36_no_loss_partial hK' S' wv ho hr hi
  refine ⟨g, a1, ?_, ?_⟩
  · intro e he
    refine ⟨_, a4.inv.contains_eq hK (by rw [a3]; exact he), (c1 e he).1, ?_⟩
    intro b s' w' hx
    obtain ⟨d1, d2⟩ := (c1 e he).2 b s' w' hx
    rw [hsp] at d1 d2
    have : b = true ↔ e ∈ g.edgesOf := by
      rw [a4.mem]
      exact ⟨fun h => (d2 h).resolve_right (hng e), d1⟩
    rw [Bool.eq_iff_iff, this, decide_eq_true_eq]
  · intro x hx
    obtain ⟨l, l1, l2, l3⟩ := a4.inv.listNeighbour hK a4.above (x := x) (by rw [a3]; exact hx)
    refine ⟨l, l1, (c2 x hx).1, ?_⟩
    intro l' s' w' hx' y
    obtain ⟨d1, d2⟩ := (c2 x hx).2 l' s' w' hx' y
    rw [hsp] at d1 d2
    rw [l3, a4.mem]
    exact ⟨fun h => (d2 h).resolve_right (hng _), d1⟩

/-- `DKtree_delay_munro` with assertions enabled: whenever no merge is pending, `contains` answers as `DKtree`. -/
theorem C81_munro (hK : K.Lawful) (hF : K.ForcedPure) {S : Sizing} (hT : S.Top) {k n N : Nat} (h2 : 2 ≤ n)
    (hc : DKM.Cond (DKM.real k false) n N) {es es' : List Edge} (hes : ∀ e ∈ es, InRange n e)
    (hsame : ∀ e, e ∈ es ↔ e ∈ es') (hN : es'.length ≤ N) {d : DKM}
    (hd : DKM.run (DKM.real k false) n (es'.map Op.add) = .ok d) (hf : d.us.finish = true) :
    ∃ g : DK K, run K S n (es.map Op.add) = .ok g ∧
      ∀ e, InRange n e → ∃ b, g.contains e = .ok b ∧ d.contains (DKM.real k false) e = .ok b := by
  have hes' : ∀ e ∈ es', InRange n e := fun e he => hes e ((hsame e).2 he)
  have ho : OpsInRange n (inserts es') := by
    intro o hoo
    obtain ⟨e, he, rfl⟩ := List.mem_map.1 hoo
    exact hes' e he
  obtain ⟨g, a1, a2, a3, a4⟩ := run_inserts hK hF hT h2 hes
  refine ⟨g, a1, ?_⟩
  intro e he
  refine ⟨_, a4.inv.contains_eq hK (by rw [a3]; exact he), ?_⟩
  have hlen : (added (inserts es')).length ≤ N := by
    rw [DKM.added_inserts]; exact hN
  rw [DKM.C51 hc ho hlen hd hf he]
  congr 1
  refine decide_eq_decide.2 ?_
  rw [a4.mem, hsame]
  simp [inserts]

/-! ## Instances -/

/-- A threshold function that differs from the exact one at every level but the top one. -/
noncomputable def offSizing : Sizing where
  maxsz m i := if i = RS then realSizing.maxsz m i else realSizing.maxsz m i + 1
  rebuild := realSizing.rebuild

/-- It meets the hypothesis of the theorems and is another function. -/
example : offSizing.Top ∧ offSizing.maxsz 8 0 ≠ realSizing.maxsz 8 0 := by
  refine ⟨fun m => ?_, by simp [offSizing, RS]⟩
  have := realSizing_top m
  simpa [offSizing] using this


/-- The hypotheses of `C81_munro` are met: 17 insertions, one merge done, none pending. -/
example : (∀ N, DKM.Cond (DKM.real 2 false) 256 N) ∧
    ∃ d, DKM.run (DKM.real 2 false) 256 ((DKM.w18.take 17).map Op.add) = .ok d ∧ d.us.finish = true := by
  have hc : check (DKM.run (DKM.P256 false) 256 (inserts (DKM.w18.take 17))) (fun d => d.us.finish) = true := by
    decide +kernel
  rw [← DKM.real_eq_256] at hc
  obtain ⟨d, h1, h2⟩ := check_iff.1 hc
  exact ⟨fun N => DKM.real_cond _ (by norm_num) (by norm_num) (by norm_num), d, h1, h2⟩

/-- The hypotheses of `C81_background` are met: two insertions, the merge they started is done. -/
example : ∃ (s : BG refK2) (w : WPC refK2.T),
    BG.Reach false refK2 realSizing 5 ([(0, 1), (1, 2)].map Op.add) s w ∧ s.needs = false := by
  obtain ⟨s, w, h1, h2⟩ := playTest_sound (wv := false) (n := 5) (by decide) (l := evDone)
    (f := fun s _ => !s.needs) (by decide +kernel)
  exact ⟨s, w, h1, by simpa using h2⟩

/-- The hypothesis of `C81_delay` is met by every insertion history on 162 vertices or more. -/
example {es : List Edge} (he : ∀ e ∈ es, InRange 162 e) :
    ∃ d, DKD.run false refK2 realSizing 162 (es.map Op.add) = .ok d :=
  C33_capacity_partial refK2_lawful realSizing_top (by omega) (fun m hm => realSizing_cap (by omega)) he

end DK2
