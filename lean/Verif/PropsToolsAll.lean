import Verif.PropsTools
import Verif.PropsMunroLate
import Verif.PropsBg
import Verif.PropsBgIter
import Verif.PropsDelay
/-!
# C108 – `add` on each of the five classes
-/

namespace DK2
namespace Tools
open DK
variable {K : K2Impl}

/-- One run of `add <dataset> <vertices> <runs> 1` (evaluation/delay_add_edge/add.cpp:47-73). -/
def addTree (K : K2Impl) (S : Sizing) (n : Nat) (text : List Char) : Res (DK K) := do
  let es ← buildEdges (getlines [] text)
  DK.run K S n (inserts es)

/-- One run of `add <dataset> <vertices> <runs> 3` (add.cpp:89-103): a `DKtree_delay`; the Makefile leaves assertions on. -/
def addDelay (K : K2Impl) (S : Sizing) (n : Nat) (text : List Char) : Res (DKD K) := do
  let es ← buildEdges (getlines [] text)
  DKD.run false K S n (inserts es)

/-- One run of `add <dataset> <vertices> <runs> 4` (add.cpp:104-118): a `DKtree_delay_munro`. -/
noncomputable def addMunro (n : Nat) (text : List Char) : Res DKM := do
  let es ← buildEdges (getlines [] text)
  DKM.run (DKM.real 2 false) n (inserts es)

/-- One run of `add <dataset> <vertices> <runs> 2` (add.cpp:74-88), or 5 (add.cpp:119-133) with `wv`, can leave the graph in the state
`s` and its worker at `w`. -/
def AddBg (wv : Bool) (K : K2Impl) (S : Sizing) (n : Nat) (text : List Char) (s : BG K) (w : WPC K.T) : Prop :=
  ∃ es, buildEdges (getlines [] text) = .ok es ∧ BG.Reach wv K S n (inserts es) s w

/-- The claim: from a dataset of distinct edges each class builds a graph that shows exactly these edges: the delayed classes and, at
every moment without a merge pending, on every schedule, the background classes. -/
def C108_Full : Prop := ∀ (K : K2Impl), K.Lawful → K.ForcedPure → ∀ (n : Nat), 2 ≤ n → n ≤ 9999999 →
  ∀ rs : List Record, WellFormed n rs → (edgesMarked rs).Nodup →
  (∃ g, addTree K realSizing n (textOf (rs.map Record.line)) = .ok g ∧ g.AnswersAll ⟨n, (edgesMarked rs).toFinset⟩) ∧
  (∃ d, addDelay K realSizing n (textOf (rs.map Record.line)) = .ok d ∧ d.Answers n (· ∈ edgesMarked rs)) ∧
  (∃ d, addMunro n (textOf (rs.map Record.line)) = .ok d ∧ d.numberEdges = (edgesMarked rs).length ∧
    (d.us.finish = true → ∀ e, InRange n e → d.contains (DKM.real 2 false) e = .ok (decide (e ∈ edgesMarked rs)))) ∧
  ∀ wv : Bool, (∃ s w, AddBg wv K realSizing n (textOf (rs.map Record.line)) s w) ∧
    ∀ s w, AddBg wv K realSizing n (textOf (rs.map Record.line)) s w →
      s.numberEdges = (edgesMarked rs).length ∧
      (s.needs = false →
        (∀ e, InRange n e → DK2.Answers realSizing (BG.contains e) s w (fun b => b = true ↔ e ∈ edgesMarked rs)) ∧
        (∀ x, x < n → DK2.Answers realSizing (BG.listNeighbour x) s w (fun l => l.Nodup ∧ ∀ y, y ∈ l ↔ (x, y) ∈ edgesMarked rs)))

theorem added_map (es : List Edge) : DK2.added (inserts es) = es := by
  induction es with
  | nil => rfl
  | cons e es ih => simpa [inserts, DK2.added] using ih

theorem inserts_opsInRange {n : Nat} {es : List Edge} (h : ∀ e ∈ es, InRange n e) : OpsInRange n (inserts es) := by
  intro o ho
  obtain ⟨e, he, rfl⟩ := List.mem_map.1 ho
  exact h e he

/-- C108, version 1: every dataset. -/
theorem C108_tree (hK : K.Lawful) (hF : K.ForcedPure) {n : Nat} (h2 : 2 ≤ n) (hn : n ≤ 9999999) {rs : List Record}
    (h : WellFormed n rs) : ∃ g, addTree K realSizing n (textOf (rs.map Record.line)) = .ok g ∧
      g.AnswersAll ⟨n, (edgesMarked rs).toFinset⟩ := by
  obtain ⟨g, h1, _⟩ := C02_insert_only hK hF (n := n) h2 (edgesMarked_inRange h)
  have hr : DK.run K realSizing n (inserts (edgesMarked rs)) = .ok g := h1
  refine ⟨g, ?_, inserts_answer hK hF realSizing_top h2 hn (edgesMarked_inRange h) hr⟩
  unfold addTree
  rw [C105_build_edges hn h, Res.ok_bind]
  exact hr

/-- C108, version 3: every dataset on 162 vertices or more.  Missing: fewer vertices, where the assertion can fail. -/
theorem C108_delay_partial (hK : K.Lawful) {n : Nat} (h2 : 162 ≤ n) (hn : n ≤ 9999999) {rs : List Record}
    (h : WellFormed n rs) : ∃ d, addDelay K realSizing n (textOf (rs.map Record.line)) = .ok d ∧ d.Answers n (· ∈ edgesMarked rs) := by
  obtain ⟨d, h1, h3⟩ := C32_large_partial hK false h2 (edgesMarked_inRange h)
  refine ⟨d, ?_, h3⟩
  unfold addDelay
  rw [C105_build_edges hn h, Res.ok_bind]
  exact h1

/-- C108, version 4: datasets of fewer than `MAXSZ(n,4)` distinct edges (about `2n/log₂ n`), with a bound on their number times the height of the trees.
Missing: larger datasets, where the assertion can fail (`C108_munro_refuted`). -/
theorem C108_munro_partial {n : Nat} (h8 : 8 ≤ n) (hn : n ≤ 9999999) {rs : List Record} (h : WellFormed n rs)
    (hd : (edgesMarked rs).Nodup) (hsz : (edgesMarked rs).length < realSizing.maxsz n 4)
    (hlim : max 1 (Nat.clog 2 n) * (edgesMarked rs).length ≤ 357913941) :
    ∃ d, addMunro n (textOf (rs.map Record.line)) = .ok d ∧ d.numberEdges = (edgesMarked rs).length ∧
      (d.us.finish = true → ∀ e, InRange n e → d.contains (DKM.real 2 false) e = .ok (decide (e ∈ edgesMarked rs))) := by
  have hc := DKM.real_ctx (k := 2) (n := n) (N := (edgesMarked rs).length) false (le_refl _) (by omega) (Or.inr ⟨rfl, hlim⟩)
  have ho := inserts_opsInRange (edgesMarked_inRange h)
  have hN : (DK2.added (inserts (edgesMarked rs))).length ≤ (edgesMarked rs).length := by rw [added_map]
  obtain ⟨d, h1⟩ := DKM.C54_k2_partial h8 hc hsz ho hN
  refine ⟨d, ?_, ?_, ?_⟩
  · unfold addMunro
    rw [C105_build_edges hn h, Res.ok_bind]
    exact h1
  · have := DKM.C53_distinct_partial realSizing_top hc.cond ho hN (by rw [added_map]; exact hd) h1
    rwa [added_map] at this
  · intro hf e he
    rw [DKM.C51 hc.cond ho hN h1 hf he]
    congr 1
    apply decide_eq_decide.2
    unfold inserts
    constructor
    · intro hm
      obtain ⟨e', h1, h2⟩ := List.mem_map.1 hm
      cases h2; exact h1
    · intro hm; exact List.mem_map_of_mem hm

/-- C108, versions 2 and 5: some schedule of each dataset runs to its end, and on all of them the graph shows the dataset's edges
whenever no merge is pending. -/
theorem C108_background (hK : K.Lawful) (wv : Bool) {n : Nat} (h2 : 2 ≤ n) (hn : n ≤ 9999999) {rs : List Record} (h : WellFormed n rs)
    (hd : (edgesMarked rs).Nodup) :
    (∃ s w, AddBg wv K realSizing n (textOf (rs.map Record.line)) s w) ∧
    ∀ s w, AddBg wv K realSizing n (textOf (rs.map Record.line)) s w →
      s.numberEdges = (edgesMarked rs).length ∧
      (s.needs = false →
        (∀ e, InRange n e → DK2.Answers realSizing (BG.contains e) s w (fun b => b = true ↔ e ∈ edgesMarked rs)) ∧
        (∀ x, x < n → DK2.Answers realSizing (BG.listNeighbour x) s w (fun l => l.Nodup ∧ ∀ y, y ∈ l ↔ (x, y) ∈ edgesMarked rs))) := by
  have hb := C105_build_edges hn h
  refine ⟨?_, ?_⟩
  · obtain ⟨s, w, h1⟩ := C56_reachable hK realSizing_top wv h2 (edgesMarked rs) (edgesMarked_inRange h)
    exact ⟨s, w, _, hb, h1⟩
  · rintro s w ⟨es, he, hr⟩
    rw [hb] at he
    cases he
    obtain ⟨⟨l, l1, l2, l3⟩, h4⟩ := C36_no_readd_partial hK realSizing wv (inserts_opsInRange (edgesMarked_inRange h)) hr (BG.noReAdd hd)
    refine ⟨?_, fun hi => ?_⟩
    · rw [l3]
      exact ((List.perm_ext_iff_of_nodup l1 hd).2 (fun e => by rw [l2, BG.specMem_inserts])).length_eq
    · simpa only [BG.specMem_inserts] using h4 hi

/-- A dataset with the given edges, all marked `a`. -/
def marked (es : List Edge) : List Record := es.map fun e => ⟨['a'], e⟩

theorem edgesMarked_marked (es : List Edge) : edgesMarked (marked es) = es := by
  induction es with
  | nil => rfl
  | cons e es ih =>
    unfold edgesMarked marked at ih ⊢
    simp only [List.map_cons, decide_true, List.filter_cons_of_pos]
    rw [ih]

theorem marked_wf {n : Nat} {es : List Edge} (h : ∀ e ∈ es, InRange n e) : WellFormed n (marked es) := by
  intro r hr
  obtain ⟨e, he, rfl⟩ := List.mem_map.1 hr
  exact ⟨(by decide : Plain ['a']), h e he⟩

/-- C108 is false: `DKtree_delay` on 25 edges of 8 vertices stops at an assertion. -/
theorem C108_refuted : ¬ C108_Full := by
  intro h
  obtain ⟨_, ⟨d, h1, _⟩, _⟩ := h refK2 refK2_lawful refK2_forcedPure 8 (by decide) (by decide) (marked w25) (marked_wf (by decide))
    (by rw [edgesMarked_marked]; decide)
  unfold addDelay at h1
  rw [C105_build_edges (n := 8) (by decide) (marked_wf (by decide)), Res.ok_bind, edgesMarked_marked, realSizing_eq_hyb] at h1
  have hx : (match DKD.run false refK2 hybSizing 8 (inserts w25) with | .abort => true | _ => false) = true := by decide +kernel
  rw [h1] at hx
  cases hx

/-- `DKtree_delay_munro` stops at its assertion on 435 distinct edges of 128 vertices. -/
theorem C108_munro_refuted : ∃ es : List Edge, es.length = 435 ∧ es.Nodup ∧ (∀ e ∈ es, InRange 128 e) ∧
    addMunro 128 (textOf ((marked es).map Record.line)) = .abort := by
  refine ⟨DKM.wG ++ (32, 32) :: (DKM.wX ++ [(12, 4)]), by decide +kernel, DKM.wAll_ok.1, DKM.wAll_ok.2, ?_⟩
  unfold addMunro
  rw [C105_build_edges (n := 128) (by decide) (marked_wf DKM.wAll_ok.2), Res.ok_bind, edgesMarked_marked]
  exact DKM.wAbort

example : ∃ d, addDelay refK2 realSizing 200 (textOf (rs0.map Record.line)) = .ok d ∧ d.Answers 200 (· ∈ [(0, 1), (2, 2)]) :=
  C108_delay_partial refK2_lawful (by decide) (by decide) (by decide)

example : ∃ d, addMunro 256 (textOf (rs0.map Record.line)) = .ok d ∧ d.numberEdges = 2 ∧
    (d.us.finish = true → ∀ e, InRange 256 e → d.contains (DKM.real 2 false) e = .ok (decide (e ∈ [(0, 1), (2, 2)]))) :=
  C108_munro_partial (rs := rs0) (by decide) (by decide) (by decide) (by decide)
    (by rw [DKM.real256 4 (by norm_num)]; decide)
    (by rw [show Nat.clog 2 256 = 8 by decide +kernel]; decide)

example : ∃ s w, AddBg true refK2 realSizing 3 (textOf (rs0.map Record.line)) s w :=
  (C108_background refK2_lawful true (by decide) (by decide) (by decide) (by decide)).1

end Tools
end DK2
