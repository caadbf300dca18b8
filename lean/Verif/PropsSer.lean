import Verif.SerProofs
import Verif.PropsGraph
/-!
# Property theorems: serialization and equality (C22–C24, C46, C47)
-/

namespace DK2
open DK

variable {K : K2Impl}

/-- The two graphs give the same answer to every query: edge count, vertex count, `contains`, `list_neighbour`
(the same sequence). -/
def SameAnswers (g g' : DK K) : Prop :=
  g'.numberEdges = g.numberEdges ∧ g'.numberNodes = g.numberNodes ∧
  (∀ e, g'.contains e = g.contains e) ∧ (∀ x, g'.listNeighbour x = g.listNeighbour x)

/-! ## C22 round trip -/

/-- C22: serializing any reachable graph into an empty directory and loading it into a default-constructed graph
gives a graph with the same answers. -/
def C22_Full : Prop :=
  ∀ (K : K2Impl), K.Lawful → K.ForcedPure → ∀ (n : Nat) (ops : List Op) (g : DK K), OpsInRange n ops →
    run K realSizing n ops = .ok g →
    ∃ d g', g.serialize (Dir.empty K) = .ok d ∧ (DK.blank K).load realSizing d = .ok g' ∧ SameAnswers g g'

/-- One buffered edge inserted and deleted: `serialize` archives an uninitialised `Edge`. -/
theorem C22_refuted : ¬ C22_Full := by
  intro h
  obtain ⟨g, hg, h1⟩ := real_check (n := 3) (ops := [.add (0, 1), .del (0, 1)])
    (f := fun g => decide (g.c0.marked = 1)) (by decide) (by decide)
  obtain ⟨d, g', a1, _⟩ := h refK2 refK2_lawful refK2_forcedPure 3 _ g (by decide) hg
  obtain ⟨hw, _⟩ := run_weak refK2_lawful realSizing (by decide) hg
  have h1 := of_decide_eq_true h1
  rw [(serialize_ub_iff hw _).2 (by omega)] at a1
  cases a1

/-- Exactly when `serialize` archives uninitialised memory: iff a buffered edge was deleted since the buffer was
last emptied. -/
theorem C22_undefined (hK : K.Lawful) (S : Sizing) {n : Nat} {ops : List Op} {g : DK K} (ho : OpsInRange n ops)
    (hr : run K S n ops = .ok g) (d : Dir K) :
    (g.serialize d = .ub ↔ g.c0.marked ≠ 0) ∧ (g.c0.marked = 0 → ∃ d', g.serialize d = .ok d') := by
  obtain ⟨hw, _⟩ := run_weak hK S ho hr
  exact ⟨serialize_ub_iff hw d, fun hm => ⟨_, serialize_ok hw d hm⟩⟩

/-- Whatever the uninitialised edges happen to hold, they come back as edges of the loaded graph. -/
theorem C22_ghost_edges (hK : K.Lawful) (S S' : Sizing) {n : Nat} {ops : List Op} {g : DK K}
    (ho : OpsInRange n ops) (hr : run K S n ops = .ok g) (hm : g.c0.marked ≠ 0) (junk : Nat → Edge) :
    ∃ d g' i, g.serializeWith (fun i => some (junk i)) (Dir.empty K) = .ok d ∧
      (DK.blank K).load S' d = .ok g' ∧ i < g.c0.nElements ∧ g'.contains (junk i) = .ok true ∧
      g'.numberEdges = g.numberEdges := by
  obtain ⟨hw, _⟩ := run_weak hK S ho hr
  obtain ⟨i, hi, hl⟩ := hw.c0wf.marked_pos hm
  have hs := serializeWith_ok hw (fun i => some (junk i)) (Dir.empty K) (fun _ _ _ => rfl)
  obtain ⟨c, a1, a2, a3, a4, a5, a6, a7⟩ := C0.insertAll_ok (S := S')
    (es := (List.range g.c0.nElements).map
      (fun i => if g.c0.isLive i then g.c0.slotEdge i else ((some (junk i)).getD (0, 0))))
    (C0.blank_wf g.c0.nVertices g.c0.maxEdges) (by
      show 0 + _ ≤ g.c0.maxEdges
      have h3 := hw.c0wf.n_le
      simp; exact h3)
  have hload : ∃ ks, (DK.blank K).load S' ⟨some ⟨g.maxR, g.nv, g.nTotal, g.c0.nVertices, g.c0.maxEdges,
      (List.range g.c0.nElements).map
        (fun i => if g.c0.isLive i then g.c0.slotEdge i else ((some (junk i)).getD (0, 0)))⟩,
      g.writeLevels (Dir.empty K)⟩ = .ok ⟨g.maxR, g.nv, g.nTotal, c, ks⟩ := by
    unfold load
    simp only [a1, Res.ok_bind]
    rw [if_pos (by show g.maxR < (List.replicate RS none).length; rw [List.length_replicate]; exact hw.maxR_lt)]
    exact ⟨_, rfl⟩
  obtain ⟨ks, hload⟩ := hload
  refine ⟨_, _, i, hs, hload, hi, ?_, ?_⟩
  · show DK.contains ⟨_, _, _, c, _⟩ (junk i) = _
    unfold DK.contains
    rw [a2.contains_eq]
    have : junk i ∈ c.live := by
      rw [a3]
      exact Or.inr (List.mem_map.2 ⟨i, List.mem_range.2 hi, by simp [hl]⟩)
    simp [this]
  · rfl

/-- Instance: with zero-filled memory the empty graph comes back with the edge `(0,0)`. -/
example : ∃ g d g', run refK2 realSizing 3 [.add (0, 1), .del (0, 1)] = .ok g ∧
    g.contains (0, 0) = .ok false ∧ g.serializeWith (fun _ => some (0, 0)) (Dir.empty refK2) = .ok d ∧
    (DK.blank refK2).load realSizing d = .ok g' ∧ g'.contains (0, 0) = .ok true := by
  obtain ⟨g, hg, h1⟩ := real_check (n := 3) (ops := [.add (0, 1), .del (0, 1)])
    (f := fun g => decide (g.c0.marked ≠ 0 ∧ g.contains (0, 0) = .ok false)) (by decide) (by decide)
  have h1 := of_decide_eq_true h1
  obtain ⟨d, g', i, b1, b2, _, b4, _⟩ := C22_ghost_edges refK2_lawful realSizing realSizing (by decide) hg h1.1
    (fun _ => (0, 0))
  exact ⟨g, d, g', hg, h1.2, b1, b2, b4⟩

/-- What loading gives, for a graph without erased buffer slot serialized into any directory without foreign
level files: the level loop restores exactly the levels `≤ max_r`. -/
theorem load_serialized (S : Sizing) {g : DK K} (hw : g.WInv) (hm : g.c0.marked = 0) {d : Dir K} {x : DK K}
    (hx : x.ks.length = RS) (hd : ∀ l, l ≤ g.maxR → g.ks[l]? = some none → d.kt l = none)
    (hxk : ∀ l, l ≤ g.maxR → g.ks[l]? = some none → x.ks[l]? = some none) (E : K2Eq K) :
    ∃ d' g', g.serialize d = .ok d' ∧ x.load S d' = .ok g' ∧
      g'.ks.take (g.maxR + 1) = g.ks.take (g.maxR + 1) ∧ g'.ks.drop (g.maxR + 1) = x.ks.drop (g.maxR + 1) ∧
      g'.maxR = g.maxR ∧ g'.numberEdges = g.numberEdges ∧ g'.numberNodes = g.numberNodes ∧
      (∀ x, g'.listNeighbour x = g.listNeighbour x) ∧ (∀ e, g'.c0.contains e = g.c0.contains e) ∧
      g.eq E g' = .ok true ∧ g'.eq E g = .ok true := by
  obtain ⟨c, a1, a2, a3, a4, a5, a6⟩ := load_ok (S := S) hw
    (d := ⟨some ⟨g.maxR, g.nv, g.nTotal, g.c0.nVertices, g.c0.maxEdges, g.c0.live⟩, g.writeLevels d⟩) hx hm rfl
  have hks : (readLevels ⟨some ⟨g.maxR, g.nv, g.nTotal, g.c0.nVertices, g.c0.maxEdges, g.c0.live⟩,
      g.writeLevels d⟩ g.maxR x.ks).take (g.maxR + 1) = g.ks.take (g.maxR + 1) := by
    apply List.ext_getElem?
    intro l
    by_cases hl : l < g.maxR + 1
    · rw [List.getElem?_take_of_lt hl, List.getElem?_take_of_lt hl, readLevels_getElem?]
      have hlk : l < g.ks.length := by rw [hw.len]; have := hw.maxR_lt; omega
      have hlx : l < x.ks.length := by rw [hx]; have := hw.maxR_lt; omega
      have hle : l ≤ g.maxR := by omega
      rw [List.getElem?_eq_getElem hlk, List.getElem?_eq_getElem hlx]
      simp only [Option.map_some, hle, if_true]
      congr 1
      show (g.writeLevels d l).orElse _ = _
      unfold writeLevels
      rw [if_pos hle, List.getElem?_eq_getElem hlk]
      cases hgl : g.ks[l] with
      | some t => rfl
      | none =>
        have hgl' : g.ks[l]? = some none := by rw [List.getElem?_eq_getElem hlk, hgl]
        simp only [Option.join]
        have hx' := hxk l hle hgl'
        rw [List.getElem?_eq_getElem hlx] at hx'
        show (d.kt l).orElse _ = none
        rw [hd l hle hgl']
        exact Option.some.inj hx'
    · rw [List.getElem?_eq_none (by simp; omega), List.getElem?_eq_none (by simp; omega)]
  have hdrop : (readLevels ⟨some ⟨g.maxR, g.nv, g.nTotal, g.c0.nVertices, g.c0.maxEdges, g.c0.live⟩,
      g.writeLevels d⟩ g.maxR x.ks).drop (g.maxR + 1) = x.ks.drop (g.maxR + 1) := by
    apply List.ext_getElem?
    intro l
    rw [List.getElem?_drop, List.getElem?_drop, readLevels_getElem?]
    cases x.ks[g.maxR + 1 + l]? with
    | none => rfl
    | some o => simp only [Option.map_some]; rw [if_neg (by omega)]
  refine ⟨_, _, serialize_ok hw d hm, a1, hks, hdrop, rfl, rfl, rfl, ?_, ?_, ?_, ?_⟩
  · intro y
    show DK.listNeighbour ⟨_, _, _, c, _⟩ y = _
    unfold DK.listNeighbour
    show (do let l ← c.listNeighbours y; _) = _
    rw [a2.listNeighbours_eq, hw.c0wf.listNeighbours_eq, a3]
    simp only [Res.ok_bind]
    rw [hks]
  · intro e
    show c.contains e = _
    rw [a2.contains_eq, hw.c0wf.contains_eq, a3]
  · refine eq_of rfl rfl rfl (C0.eq_of_live hw.c0wf a2 hm a4 a5.symm a6.symm a3.symm) ?_
    rw [hks]; exact levelsEq_self E _
  · refine eq_of rfl rfl rfl (C0.eq_of_live a2 hw.c0wf a4 hm a5 a6 a3) ?_
    show levelsEq E (List.take (g.maxR + 1) _) (List.take (g.maxR + 1) _) = true
    rw [hks]; exact levelsEq_self E _

/-- C22 where it holds: any history after which no buffered edge is deleted.  The loaded graph compares equal to
the original, both ways, and lists the same neighbours; it also answers `contains` alike unless the original holds
a level above `get_max_r()` (which only a reorganisation can produce; then that level is lost,
`C22_above_refuted`).  Missing: graphs with a deleted buffered edge (`C22_refuted`) or such a level. -/
theorem C22_roundtrip_partial (hK : K.Lawful) (S S' : Sizing) {n : Nat} {ops : List Op} {g : DK K}
    (ho : OpsInRange n ops) (hr : run K S n ops = .ok g) (hm : g.c0.marked = 0) (E : K2Eq K) :
    ∃ d g', g.serialize (Dir.empty K) = .ok d ∧ (DK.blank K).load S' d = .ok g' ∧
      g'.numberEdges = g.numberEdges ∧ g'.numberNodes = g.numberNodes ∧
      (∀ x, g'.listNeighbour x = g.listNeighbour x) ∧
      (g.NoneAbove → ∀ e, g'.contains e = g.contains e) ∧
      g.eq E g' = .ok true ∧ g'.eq E g = .ok true := by
  obtain ⟨hw, _⟩ := run_weak hK S ho hr
  obtain ⟨d, g', a1, a2, a3, a4, a5, a6, a7, a8, a9, a10, a11⟩ := load_serialized S' hw hm (d := Dir.empty K)
    (x := DK.blank K) (by show (List.replicate RS none).length = RS; simp) (fun _ _ _ => rfl)
    (by
      intro l hl _
      have := hw.maxR_lt
      show (List.replicate RS none)[l]? = _
      rw [List.getElem?_replicate]; rw [if_pos (by omega)]) E
  refine ⟨d, g', a1, a2, a6, a7, a8, ?_, a10, a11⟩
  intro ha e
  have ha' : g'.NoneAbove := by
    intro i t hi
    by_contra hlt
    have h1 : (g'.ks.drop (g.maxR + 1))[i - (g.maxR + 1)]? = some (some t) := by
      rw [List.getElem?_drop]
      rw [show g.maxR + 1 + (i - (g.maxR + 1)) = i from by rw [a5] at hlt; omega]
      exact hi
    rw [a4, List.getElem?_drop] at h1
    have : (DK.blank K).ks = List.replicate RS none := rfl
    rw [this, List.getElem?_replicate] at h1
    split at h1 <;> simp at h1
  unfold DK.contains
  rw [a9 e, ← treesContain_take ha e, ← treesContain_take ha' e, a5, a3]

/-- C22 in full for insert-only graphs with the real thresholds. -/
theorem C22_insert_only_partial (hK : K.Lawful) (hF : K.ForcedPure) (E : K2Eq K) {n : Nat} (hn : 2 ≤ n)
    {es : List Edge} (hes : ∀ e ∈ es, InRange n e) :
    ∃ g d g', run K realSizing n (es.map Op.add) = .ok g ∧ g.serialize (Dir.empty K) = .ok d ∧
      (DK.blank K).load realSizing d = .ok g' ∧ SameAnswers g g' ∧ g.eq E g' = .ok true := by
  obtain ⟨g, h1, hf, h3, h4⟩ := run_inserts hK hF realSizing_top hn hes
  have ho : OpsInRange n (inserts es) := by
    intro o hoo
    obtain ⟨e, he, rfl⟩ := List.mem_map.1 hoo
    exact hes e he
  obtain ⟨d, g', a1, a2, a3, a4, a5, a6, a7, _⟩ := C22_roundtrip_partial hK realSizing realSizing ho h1 hf.c0m E
  exact ⟨g, d, g', h1, a1, a2, ⟨a3, a4, a6 h4.above, a5⟩, a7⟩

/-- A level above `max_r` (left by a reorganisation) is not serialized: the loaded graph has lost its edges,
although the original answers `contains` correctly. -/
theorem C22_above_refuted : ∃ (g : DK refK2) (d : Dir refK2) (g' : DK refK2),
    run refK2 realSizing 3 wAbove = .ok g ∧ g.serialize (Dir.empty refK2) = .ok d ∧
    (DK.blank refK2).load realSizing d = .ok g' ∧ g.contains (2, 1) = .ok true ∧ g'.contains (2, 1) = .ok false := by
  obtain ⟨g, hg, h1⟩ := real_check (n := 3) (ops := wAbove)
    (f := fun g => check (g.serialize (Dir.empty refK2)) (fun d => check ((DK.blank refK2).load tabSizing d)
      (fun g' => decide (g.contains (2, 1) = .ok true ∧ g'.contains (2, 1) = .ok false ∧ g.c0.marked = 0 ∧
        g.c0.live = []))))
    (by decide) (by decide)
  obtain ⟨d, hd, h1⟩ := check_iff.1 h1
  obtain ⟨g', hg', h1⟩ := check_iff.1 h1
  have h1 := of_decide_eq_true h1
  refine ⟨g, d, g', hg, hd, ?_, h1.1, h1.2.1⟩
  obtain ⟨hw, _⟩ := run_weak refK2_lawful realSizing (by decide) hg
  have hs := serialize_ok hw (Dir.empty refK2) h1.2.2.1
  rw [hd, h1.2.2.2] at hs
  have hs := Res.ok.inj hs
  rw [hs] at hg' ⊢
  exact hg'

/-! ## C23 serializing over an older serialization -/

/-- C23: whatever the directory holds, serializing into it and loading gives the serialized graph. -/
def C23_Full : Prop :=
  ∀ (K : K2Impl), K.Lawful → K.ForcedPure → ∀ (n : Nat) (opsA opsB : List Op) (a b : DK K),
    OpsInRange n opsA → OpsInRange n opsB → run K realSizing n opsA = .ok a → run K realSizing n opsB = .ok b →
    ∀ d, a.serialize (Dir.empty K) = .ok d → b.c0.marked = 0 →
      ∃ d' g', b.serialize d = .ok d' ∧ (DK.blank K).load realSizing d' = .ok g' ∧
        ∀ e, InRange n e → g'.contains e = b.contains e

/-- A graph with one level, and one whose levels were merged upwards. -/
def wOld : List Op := [(0, 1), (0, 2), (0, 3)].map Op.add
def wNew : List Op := [(1, 1), (1, 2), (1, 3), (1, 4), (1, 5), (1, 6)].map Op.add

/-- The old level file `2.kt` stays in the directory and is loaded into the new graph. -/
theorem C23_refuted : ¬ C23_Full := by
  intro h
  obtain ⟨a, ha, h1⟩ := real_check (n := 17) (ops := wOld)
    (f := fun a => check (a.serialize (Dir.empty refK2)) (fun d => check (run refK2 tabSizing 17 wNew)
      (fun b => check (b.serialize d) (fun d' => check ((DK.blank refK2).load tabSizing d') (fun g' =>
        decide (b.contains (0, 1) = .ok false ∧ g'.contains (0, 1) = .ok true ∧ b.c0.marked = 0 ∧ b.c0.live = []))))))
    (by decide) (by decide)
  obtain ⟨d, hd, h1⟩ := check_iff.1 h1
  obtain ⟨b, hb, h1⟩ := check_iff.1 h1
  obtain ⟨d', hd', h1⟩ := check_iff.1 h1
  obtain ⟨g', hg', h1⟩ := check_iff.1 h1
  have h1 := of_decide_eq_true h1
  rw [← real_run (by decide)] at hb
  obtain ⟨d'', g'', b1, b2, b3⟩ := h refK2 refK2_lawful refK2_forcedPure 17 wOld wNew a b (by decide) (by decide)
    ha hb d hd h1.2.2.1
  rw [hd'] at b1; cases b1
  obtain ⟨hw, _⟩ := run_weak refK2_lawful realSizing (by decide) hb
  have hs := serialize_ok hw d h1.2.2.1
  rw [hd', h1.2.2.2] at hs
  have hs := Res.ok.inj hs
  have : (DK.blank refK2).load realSizing d' = (DK.blank refK2).load tabSizing d' := by rw [hs]; rfl
  rw [this, hg'] at b2
  cases b2
  have := b3 (0, 1) (by decide)
  rw [h1.1, h1.2.1] at this
  cases this

/-- C23 where it holds: no stale level file for an empty level of the new graph.  Missing: directories with such
files (`C23_refuted`), graphs with deleted buffered edges, levels above `max_r` (see C22). -/
theorem C23_partial (hK : K.Lawful) (S S' : Sizing) {n : Nat} {ops : List Op} {g : DK K} (ho : OpsInRange n ops)
    (hr : run K S n ops = .ok g) (hm : g.c0.marked = 0) (ha : g.NoneAbove) (d : Dir K)
    (hd : ∀ l, l ≤ g.maxR → g.ks[l]? = some none → d.kt l = none) :
    ∃ d' g', g.serialize d = .ok d' ∧ (DK.blank K).load S' d' = .ok g' ∧ SameAnswers g g' := by
  obtain ⟨hw, _⟩ := run_weak hK S ho hr
  have hE : ∃ E : K2Eq K, True := ⟨by
    classical
    exact ⟨fun t u => decide (t = u), by simp, fun t u e h => by simp at h; rw [h],
      fun t u x h => by simp at h; rw [h]⟩, trivial⟩
  obtain ⟨E, _⟩ := hE
  obtain ⟨d', g', a1, a2, a3, a4, a5, a6, a7, a8, a9, _, _⟩ := load_serialized S' hw hm (d := d)
    (x := DK.blank K) (by show (List.replicate RS none).length = RS; simp) hd
    (by
      intro l hl _
      have := hw.maxR_lt
      show (List.replicate RS none)[l]? = _
      rw [List.getElem?_replicate]; rw [if_pos (by omega)]) E
  refine ⟨d', g', a1, a2, a6, a7, ?_, a8⟩
  · intro e
    have ha' : g'.NoneAbove := by
      intro i t hi
      by_contra hlt
      have h1 : (g'.ks.drop (g.maxR + 1))[i - (g.maxR + 1)]? = some (some t) := by
        rw [List.getElem?_drop]
        rw [show g.maxR + 1 + (i - (g.maxR + 1)) = i from by rw [a5] at hlt; omega]
        exact hi
      rw [a4, List.getElem?_drop] at h1
      have : (DK.blank K).ks = List.replicate RS none := rfl
      rw [this, List.getElem?_replicate] at h1
      split at h1 <;> simp at h1
    unfold DK.contains
    rw [a9 e, ← treesContain_take ha e, ← treesContain_take ha' e, a5, a3]

/-! ## C46 loading into a graph in use -/

/-- C46: `load` replaces whatever the graph held. -/
def C46_Full : Prop :=
  ∀ (K : K2Impl), K.Lawful → K.ForcedPure → ∀ (n : Nat) (opsA opsB : List Op) (a b : DK K),
    OpsInRange n opsA → OpsInRange n opsB → run K realSizing n opsA = .ok a → run K realSizing n opsB = .ok b →
    ∀ d, b.serialize (Dir.empty K) = .ok d → ∃ g', a.load realSizing d = .ok g' ∧
      ∀ e, InRange n e → g'.contains e = b.contains e

/-- Levels without a file keep the tree of the old graph. -/
theorem C46_refuted : ¬ C46_Full := by
  intro h
  obtain ⟨a, ha, h1⟩ := real_check (n := 17) (ops := wOld)
    (f := fun a => check (run refK2 tabSizing 17 wNew)
      (fun b => check (b.serialize (Dir.empty refK2)) (fun d' => check (a.load tabSizing d') (fun g' =>
        decide (b.contains (0, 1) = .ok false ∧ g'.contains (0, 1) = .ok true ∧ b.c0.marked = 0 ∧ b.c0.live = [])))))
    (by decide) (by decide)
  obtain ⟨b, hb, h1⟩ := check_iff.1 h1
  obtain ⟨d', hd', h1⟩ := check_iff.1 h1
  obtain ⟨g', hg', h1⟩ := check_iff.1 h1
  have h1 := of_decide_eq_true h1
  rw [← real_run (by decide)] at hb
  obtain ⟨g'', b2, b3⟩ := h refK2 refK2_lawful refK2_forcedPure 17 wOld wNew a b (by decide) (by decide)
    ha hb d' hd'
  obtain ⟨hw, _⟩ := run_weak refK2_lawful realSizing (by decide) hb
  have hs := serialize_ok hw (Dir.empty refK2) h1.2.2.1
  rw [hd', h1.2.2.2] at hs
  have hs := Res.ok.inj hs
  have : a.load realSizing d' = a.load tabSizing d' := by rw [hs]; rfl
  rw [this, hg'] at b2
  cases b2
  have := b3 (0, 1) (by decide)
  rw [h1.1, h1.2.1] at this
  cases this

/-- C46 where it holds: the levels of the graph in use that the loaded one leaves empty are empty.  Missing: the
other graphs (`C46_refuted`), deleted buffered edges, levels above `max_r`. -/
theorem C46_partial (hK : K.Lawful) (S S' : Sizing) {n m : Nat} {opsA opsB : List Op} {a b : DK K}
    (hoa : OpsInRange m opsA) (hob : OpsInRange n opsB) (hra : run K S m opsA = .ok a)
    (hrb : run K S n opsB = .ok b) (hm : b.c0.marked = 0) (hab : b.NoneAbove)
    (hk : ∀ l : Nat, b.ks[l]? = some none → a.ks[l]? = some none) :
    ∃ d g', b.serialize (Dir.empty K) = .ok d ∧ a.load S' d = .ok g' ∧ SameAnswers b g' := by
  obtain ⟨hwa, _⟩ := run_weak hK S hoa hra
  obtain ⟨hw, _⟩ := run_weak hK S hob hrb
  classical
  let E : K2Eq K := ⟨fun t u => decide (t = u), by simp, fun t u e h => by simp at h; rw [h],
      fun t u x h => by simp at h; rw [h]⟩
  obtain ⟨d', g', a1, a2, a3, a4, a5, a6, a7, a8, a9, _, _⟩ := load_serialized S' hw hm (d := Dir.empty K)
    (x := a) hwa.len (fun _ _ _ => rfl) (fun l _ h => hk l h) E
  refine ⟨d', g', a1, a2, a6, a7, ?_, a8⟩
  intro e
  have ha' : g'.NoneAbove := by
    intro i t hi
    by_contra hlt
    rw [a5] at hlt
    have h1 : (g'.ks.drop (b.maxR + 1))[i - (b.maxR + 1)]? = some (some t) := by
      rw [List.getElem?_drop]
      rw [show b.maxR + 1 + (i - (b.maxR + 1)) = i from by omega]
      exact hi
    rw [a4, List.getElem?_drop] at h1
    rw [show b.maxR + 1 + (i - (b.maxR + 1)) = i from by omega] at h1
    have hil : i < b.ks.length := by
      rw [hw.len, ← hwa.len]
      exact (List.getElem?_eq_some_iff.1 h1).1
    have h2 : b.ks[i]? = some none := by
      rw [List.getElem?_eq_getElem hil]
      cases hb : b.ks[i] with
      | none => rfl
      | some u =>
        have := hab i u (by rw [List.getElem?_eq_getElem hil, hb])
        omega
    rw [hk i h2] at h1
    cases h1
  unfold DK.contains
  rw [a9 e, ← treesContain_take hab e, ← treesContain_take ha' e, a5, a3]

/-! ## C24 operator== -/

/-- C24: graphs that compare equal answer alike. -/
def C24_Full : Prop :=
  ∀ (K : K2Impl) (E : K2Eq K), K.Lawful → K.ForcedPure → ∀ (n m : Nat) (opsA opsB : List Op) (a b : DK K),
    OpsInRange n opsA → OpsInRange m opsB → run K realSizing n opsA = .ok a → run K realSizing m opsB = .ok b →
    a.eq E b = .ok true → SameAnswers a b

/-- `wAbove` with the vertices 0 and 2 exchanged. -/
def wAbove2 : List Op := [.add (2, 0), .add (1, 2), .add (2, 2), .add (1, 1), .del (2, 2), .add (0, 1),
  .add (0, 2), .del (0, 1), .add (2, 1), .add (2, 2), .add (0, 1), .del (2, 0), .del (1, 1), .del (2, 1)]

/-- Levels above `max_r` are not compared: two graphs with different edges compare equal. -/
theorem C24_refuted : ¬ C24_Full := by
  intro h
  obtain ⟨a, ha, h1⟩ := real_check (n := 3) (ops := wAbove)
    (f := fun a => decide (a.c0.marked = 0 ∧ a.c0.live = [] ∧ a.c0.maxEdges = 2 ∧ a.maxR = 4 ∧ a.nTotal = 4 ∧
      a.ks.take 5 = List.replicate 5 none ∧ a.contains (2, 1) = .ok true)) (by decide) (by decide)
  obtain ⟨b, hb, h2⟩ := real_check (n := 3) (ops := wAbove2)
    (f := fun a => decide (a.c0.marked = 0 ∧ a.c0.live = [] ∧ a.c0.maxEdges = 2 ∧ a.maxR = 4 ∧ a.nTotal = 4 ∧
      a.ks.take 5 = List.replicate 5 none ∧ a.contains (2, 1) = .ok false)) (by decide) (by decide)
  obtain ⟨p1, p2, p3, p4, p5, p6, p7⟩ := of_decide_eq_true h1
  obtain ⟨q1, q2, q3, q4, q5, q6, q7⟩ := of_decide_eq_true h2
  obtain ⟨wa, va, _⟩ := run_weak refK2_lawful realSizing (by decide) ha
  obtain ⟨wb, vb, _⟩ := run_weak refK2_lawful realSizing (by decide) hb
  have := h refK2 refEq refK2_lawful refK2_forcedPure 3 3 wAbove wAbove2 a b (by decide) (by decide) ha hb
    (eq_of (by rw [p4, q4]) (by rw [va, vb]) (by rw [p5, q5])
      (C0.eq_of_live wa.c0wf wb.c0wf p1 q1 (by rw [p3, q3]) (by rw [wa.c0nv, wb.c0nv, va, vb]) (by rw [p2, q2]))
      (by rw [p4, p6, q6]; exact levelsEq_self refEq _))
  have h3 := this.2.2.1 (2, 1)
  rw [p7, q7] at h3
  cases h3

/-- C24: every graph equals itself; graphs that compare equal have the same counts and the same neighbour lists,
and the same `contains` when neither holds a level above `get_max_r()`.  Missing: such levels (`C24_refuted`). -/
theorem C24_partial (hK : K.Lawful) (E : K2Eq K) (S : Sizing) {n m : Nat} {opsA opsB : List Op} {a b : DK K}
    (hoa : OpsInRange n opsA) (hob : OpsInRange m opsB) (ha : run K S n opsA = .ok a)
    (hb : run K S m opsB = .ok b) :
    a.eq E a = .ok true ∧
    (a.eq E b = .ok true → b.numberEdges = a.numberEdges ∧ b.numberNodes = a.numberNodes ∧
      (∀ x, b.listNeighbour x = a.listNeighbour x) ∧
      (a.NoneAbove → b.NoneAbove → ∀ e, b.contains e = a.contains e)) := by
  obtain ⟨wa, _⟩ := run_weak hK S hoa ha
  obtain ⟨wb, _⟩ := run_weak hK S hob hb
  refine ⟨eq_of rfl rfl rfl (C0.eq_self wa.c0wf) (levelsEq_self E _), ?_⟩
  intro h
  obtain ⟨h1, h2, h3, h4, h5⟩ := DK.eq_true h
  have hl := C0.eq_live h4
  refine ⟨h3.symm, h2.symm, ?_, ?_⟩
  · intro x
    unfold DK.listNeighbour
    rw [wa.c0wf.listNeighbours_eq, wb.c0wf.listNeighbours_eq, hl, ← h1, levelsEq_neigh E x h5]
  · intro na nb e
    unfold DK.contains
    rw [wa.c0wf.contains_eq, wb.c0wf.contains_eq, hl, ← treesContain_take na, ← treesContain_take nb, ← h1,
      levelsEq_contains E e h5]

/-- On histories without reorganisation C24 holds in full. -/
theorem C24_quiet_partial (hK : K.Lawful) (hF : K.ForcedPure) (E : K2Eq K) (S : Sizing) {n m : Nat}
    {opsA opsB : List Op} {a b : DK K} (hoa : OpsInRange n opsA) (hob : OpsInRange m opsB)
    (hqa : Quiet K S n opsA) (hqb : Quiet K S m opsB) (ha : run K S n opsA = .ok a)
    (hb : run K S m opsB = .ok b) (h : a.eq E b = .ok true) :
    SameAnswers a b ∧ (∀ e, specMem opsA e ↔ specMem opsB e) := by
  obtain ⟨xa, va⟩ := run_exact hK hF S hoa hqa ha
  obtain ⟨xb, vb⟩ := run_exact hK hF S hob hqb hb
  obtain ⟨h1, h2, h3, h4⟩ := (C24_partial hK E S hoa hob ha hb).2 h
  have h5 := h4 xa.above xb.above
  refine ⟨⟨h1, h2, h5, h3⟩, ?_⟩
  have key : ∀ e, InRange n e → (specMem opsA e ↔ specMem opsB e) := by
    intro e he
    have hnm : b.nv = a.nv := h2
    have c1 := xa.inv.contains_eq hK (e := e) (by rw [va]; exact he)
    have c2 := xb.inv.contains_eq hK (e := e) (by rw [hnm, va]; exact he)
    have := h5 e
    rw [c1, c2] at this
    have := Res.ok.inj this
    rw [specMem_iff_specRun, specMem_iff_specRun, ← xa.mem e, ← xb.mem e]
    simpa [eq_comm] using this.symm
  intro e
  have hnm : n = m := by
    have : b.nv = a.nv := h2
    rw [va, vb] at this; exact this.symm
  constructor
  · intro hs
    exact (key e (xa.inv.range e ((xa.mem e).2 ((specMem_iff_specRun _ _).1 hs)) |> fun h => by rw [va] at h; exact h)).1 hs
  · intro hs
    exact (key e (xb.inv.range e ((xb.mem e).2 ((specMem_iff_specRun _ _).1 hs)) |> fun h => by
      rw [vb, ← hnm] at h; exact h)).2 hs

/-! ## C47 operator== returns -/

/-- C47: any two graphs can be compared. -/
def C47_Full : Prop :=
  ∀ (K : K2Impl) (E : K2Eq K), K.Lawful → K.ForcedPure → ∀ (n m : Nat) (opsA opsB : List Op) (a b : DK K),
    OpsInRange n opsA → OpsInRange m opsB → run K realSizing n opsA = .ok a → run K realSizing m opsB = .ok b →
    ∃ r, a.eq E b = .ok r

/-- Comparing a buffer of three edges with a buffer of two slots reads past the end of the vector. -/
theorem C47_refuted : ¬ C47_Full := by
  intro h
  obtain ⟨a, ha, h1⟩ := real_check (n := 2) (ops := [(1, 1), (1, 0), (0, 0)].map Op.add)
    (f := fun a => decide (a.c0.nElements = 3)) (by decide) (by decide)
  obtain ⟨b, hb, h2⟩ := real_check (n := 3) (ops := [(1, 1), (1, 0)].map Op.add)
    (f := fun b => decide (b.c0.elementsNodes.length = 2)) (by decide) (by decide)
  have h1 := of_decide_eq_true h1
  have h2 := of_decide_eq_true h2
  obtain ⟨r, hr⟩ := h refK2 refEq refK2_lawful refK2_forcedPure 2 3 _ _ a b (by decide) (by decide) ha hb
  unfold DK.eq at hr
  obtain ⟨r1, hr1, _⟩ := Res.bind_eq_ok.1 hr
  unfold C0.eq at hr1
  obtain ⟨r2, hr2, _⟩ := Res.bind_eq_ok.1 hr1
  rw [h1, show List.range 3 = [0, 1, 2] from rfl] at hr2
  simp only [C0.eqNodes, Res.bind_eq_ok, rd_eq_ok, use_eq_ok] at hr2
  obtain ⟨_, _, _, _, _, _, _, _, _, ⟨_, _, _, _, _, _, _, _, _, ⟨_, _, _, _, o, ho, _⟩, _⟩, _⟩ := hr2
  have := (List.getElem?_eq_some_iff.1 ho).1
  omega

/-- C47 where it holds: the right graph has used at least as many buffer slots.  Missing: the other direction
(`C47_refuted`). -/
theorem C47_partial (hK : K.Lawful) (E : K2Eq K) (S : Sizing) {n m : Nat} {opsA opsB : List Op} {a b : DK K}
    (hoa : OpsInRange n opsA) (hob : OpsInRange m opsB) (ha : run K S n opsA = .ok a)
    (hb : run K S m opsB = .ok b) (h : a.c0.nElements ≤ b.c0.nElements) : ∃ r, a.eq E b = .ok r := by
  obtain ⟨wa, _⟩ := run_weak hK S hoa ha
  obtain ⟨wb, _⟩ := run_weak hK S hob hb
  obtain ⟨r, hr⟩ := C0.eq_returns wa.c0wf wb.c0wf h
  unfold DK.eq
  rw [hr]
  exact ⟨_, rfl⟩

/-- Instance: serialize/load of a graph with a buffered edge and a level, under the real thresholds. -/
example : ∃ g d g', run refK2 realSizing 5 ((wNew.take 4).map fun o => match o with
      | .add e => Op.add (e.1, e.2 - 1) | .del e => Op.del e) = .ok g ∧
    g.serialize (Dir.empty refK2) = .ok d ∧
    (DK.blank refK2).load realSizing d = .ok g' ∧ SameAnswers g g' ∧ g.eq refEq g' = .ok true :=
  C22_insert_only_partial refK2_lawful refK2_forcedPure refEq (n := 5) (by decide)
    (es := [(1, 0), (1, 1), (1, 2), (1, 3)]) (by decide)

end DK2
