import Verif.Bg
import Verif.DelayProofs
import Verif.Marks
/-!
# Proofs about `DKtree_background`: the worker
-/

namespace DK2
namespace BG
open DK
variable {K : K2Impl}

/-- The edges handed to the worker and not yet in the levels. -/
def pend (s : BG K) : WPC K.T → List Edge
  | .top => if s.needs then s.conv else []
  | .test => if s.needs then s.conv else []
  | .build => if s.needs then s.conv else []
  | .search t => K.edges t
  | .merge t _ _ => K.edges t
  | .store t _ => K.edges t
  | .finish => []
  | .stopped => []

/-- A batch that can be built into a tree. -/
def Batch (n : Nat) (l : List Edge) : Prop := l.Nodup ∧ ∀ e ∈ l, InRange n e

/-- Where the worker can be, given the flag; `cv` is the content of `converted` while idle. -/
def Stage (n : Nat) (cv : List Edge) (s : BG K) : WPC K.T → Prop
  | .top => (s.needs = true → Batch n s.conv) ∧ (s.needs = false → s.conv = cv)
  | .test => (s.needs = true → Batch n s.conv) ∧ (s.needs = false → s.conv = cv)
  | .build => s.needs = true ∧ Batch n s.conv
  | .search t => s.needs = true ∧ s.conv = [] ∧ K.valid n t
  | .merge t i j => s.needs = true ∧ s.conv = [] ∧ K.valid n t ∧ i ≤ s.g.maxR ∧ i < RS ∧ j ≤ i + 1 ∧
      ∀ j', j' < j → s.g.ks[j']? = some none
  | .store t i => s.needs = true ∧ s.conv = [] ∧ K.valid n t ∧ i ≤ s.g.maxR ∧ i < RS ∧
      s.g.ks[i]? = some none
  | .finish => s.needs = true ∧ s.conv = []
  | .stopped => False

/-- No erased edge in the tree the worker is building. -/
def TmpFresh (K : K2Impl) : WPC K.T → Prop
  | .search t => K.marked t = 0
  | .merge t _ _ => K.marked t = 0
  | .store t _ => K.marked t = 0
  | _ => True

/-- The worker has not yet chosen a level. -/
def Early : WPC K.T → Prop
  | .top => True
  | .test => True
  | .build => True
  | .search _ => True
  | _ => False

/-- Parameters of the invariant: number of vertices, edges present, edges that may be stored twice, whether
few edges have been deleted, edges known to be visible, the number of erased edges that the levels may hold, and
whether no edge was deleted from the buffer. -/
structure JC where
  n : Nat
  G : Edge → Prop
  D : Edge → Prop
  tot : Prop
  V : Edge → Prop
  k : Nat
  cm : Prop

/-- What holds of the edge counter and capacities when few edges have been deleted. -/
structure Tot (S : Sizing) (c : JC) (s : BG K) (w : WPC K.T) : Prop where
  two : 2 ≤ s.g.nv
  rare : 6 * c.k ≤ s.g.nTotal
  c0m : c.cm → s.g.c0.marked = 0
  trees : marks K s.g.ks ≤ c.k
  tmp : TmpFresh K w
  room : s.needs = true → Early w →
    S.maxsz s.maxSb 0 + (flat K s.g.ks).length ≤ s.maxSb ∧ c.k + 2 ≤ s.maxSb

/-- The snapshot taken when the merge was handed over. -/
structure Snap (c : JC) (s : BG K) (w : WPC K.T) : Prop where
  val : AllValid K c.n s.bks
  above : ∀ i t, s.bks[i]? = some (some t) → i ≤ s.maxRb
  sub : ∀ e, (e = s.tmpEdge ∨ e ∈ flat K s.bks) → e ∈ pend s w ++ flat K s.g.ks
  le : s.maxRb ≤ s.g.maxR

/-- What a look-up finds outside the buffer. -/
def Seen (s : BG K) (e : Edge) : Prop :=
  (s.needs = true ∧ (e = s.tmpEdge ∨ e ∈ flat K s.bks)) ∨ (s.needs = false ∧ e ∈ flat K s.g.ks)

theorem Stage.idle {n : Nat} {cv : List Edge} {s : BG K} {w : WPC K.T} (h : Stage n cv s w)
    (hn : s.needs = false) : (w = .top ∨ w = .test) ∧ pend s w = [] ∧ s.conv = cv := by
  cases w with
  | top => exact ⟨Or.inl rfl, by simp [pend, hn], h.2 hn⟩
  | test => exact ⟨Or.inr rfl, by simp [pend, hn], h.2 hn⟩
  | stopped => exact absurd h id
  | _ => have := h.1; rw [hn] at this; cases this

/-- Everything stored: `lv` is the part in the buffer. -/
def stored (lv : List Edge) (s : BG K) (w : WPC K.T) : List Edge := lv ++ (pend s w ++ flat K s.g.ks)

/-- The invariant.  `lv` is the part of the graph that is in the buffer, `cv` the content of `converted`
while idle, `x` the edges stored and not yet counted. -/
structure J (S : Sizing) (c : JC) (lv cv : List Edge) (x : Nat) (s : BG K) (w : WPC K.T) : Prop where
  c0wf : s.g.c0.WF
  c0nv : s.g.c0.nVertices = s.g.nv
  nv : s.g.nv = c.n
  run : s.run = true
  len : s.g.ks.length = RS
  val : AllValid K c.n s.g.ks
  above : s.g.NoneAbove
  maxR : s.g.maxR < RS
  rangeC : ∀ e ∈ s.g.c0.live, InRange c.n e
  stage : Stage c.n cv s w
  cvn : s.needs = true → cv = []
  mem : ∀ e, c.G e ↔ e ∈ stored lv s w
  one : ∀ e, ¬ c.D e → (stored lv s w).count e ≤ 1
  num : (∀ e, ¬ c.D e) → (stored lv s w).length = s.g.nTotal + x
  le : c.tot → (stored lv s w).length ≤ s.g.nTotal + x
  snap : s.needs = true → Snap c s w
  vis : ∀ e, c.V e → e ∈ lv ∨ Seen s e
  tot : c.tot → Tot S c s w

theorem nodup_of_count {l : List Edge} (h : ∀ e, l.count e ≤ 1) : l.Nodup :=
  List.nodup_iff_count_le_one.2 h

theorem count_edges (hK : K.Lawful) {n : Nat} {t : K.T} (h : K.valid n t) (e : Edge) :
    (K.edges t).count e = if e ∈ K.edges t then 1 else 0 := by
  split
  · exact List.count_eq_one_of_mem (hK.edges_nodup n t h) ‹_›
  · exact List.count_eq_zero_of_not_mem ‹_›

theorem flat_set_some {ks : List (Option K.T)} {j : Nat} {o : Option K.T} (hj : j < ks.length) :
    flat K (ks.set j o) = flat K (ks.take j) ++ (oedges K o ++ flat K (ks.drop (j + 1))) := by
  rw [List.set_eq_take_append_cons_drop, if_pos hj, flat_append]
  cases o <;> simp [oedges]

theorem flat_get {ks : List (Option K.T)} {j : Nat} {o : Option K.T} (hj : ks[j]? = some o) :
    flat K ks = flat K (ks.take j) ++ (oedges K o ++ flat K (ks.drop (j + 1))) := by
  have hlt : j < ks.length := (List.getElem?_eq_some_iff.1 hj).1
  have : ks.set j o = ks := by
    apply List.ext_getElem?
    intro i
    rw [List.getElem?_set]
    split
    · rename_i h; subst h; rw [hj]
    · rfl
  conv_lhs => rw [← this]
  exact flat_set_some hlt

/-- Reorganising the stored edges: same members, no more copies. -/
theorem J.regroup {S : Sizing} {c : JC} {lv cv cv' : List Edge} {x : Nat} {s s' : BG K} {w w' : WPC K.T}
    (h : J S c lv cv x s w) (hmem : ∀ e, (e ∈ pend s' w' ++ flat K s'.g.ks) ↔ e ∈ pend s w ++ flat K s.g.ks)
    (hcnt : ∀ e, (pend s' w' ++ flat K s'.g.ks).count e ≤ (pend s w ++ flat K s.g.ks).count e)
    (hlen : (pend s' w' ++ flat K s'.g.ks).length ≤ (pend s w ++ flat K s.g.ks).length)
    (hc0 : s'.g.c0 = s.g.c0) (hnv : s'.g.nv = s.g.nv) (hnt : s'.g.nTotal = s.g.nTotal)
    (hrun : s'.run = s.run) (hl : s'.g.ks.length = RS) (hval : AllValid K c.n s'.g.ks)
    (hab : s'.g.NoneAbove) (hmr : s'.g.maxR < RS) (hst : Stage c.n cv' s' w')
    (hcv : s'.needs = true → cv' = [])
    (hsnap : s'.needs = true → s.needs = true ∧ s'.bks = s.bks ∧ s'.maxRb = s.maxRb ∧ s'.tmpEdge = s.tmpEdge ∧
      s.g.maxR ≤ s'.g.maxR)
    (htot : c.tot → Tot S c s w → Tot S c s' w') : J S c lv cv' x s' w' where
  c0wf := by rw [hc0]; exact h.c0wf
  c0nv := by rw [hc0, hnv]; exact h.c0nv
  nv := by rw [hnv]; exact h.nv
  run := by rw [hrun]; exact h.run
  len := hl
  val := hval
  above := hab
  maxR := hmr
  rangeC := by rw [hc0]; exact h.rangeC
  stage := hst
  cvn := hcv
  mem := by
    intro e
    rw [h.mem e]
    unfold stored
    rw [List.mem_append, List.mem_append (s := lv), hmem e]
  one := by
    intro e he
    have := h.one e he
    unfold stored at *
    rw [List.count_append] at *
    have := hcnt e
    omega
  num := by
    intro hD
    have h1 := h.num hD
    rw [hnt, ← h1]
    have n1 : (stored lv s w).Nodup := nodup_of_count (fun e => h.one e (hD e))
    have n2 : (stored lv s' w').Nodup := by
      refine nodup_of_count (fun e => ?_)
      have := h.one e (hD e)
      unfold stored at *
      rw [List.count_append] at *
      have := hcnt e
      omega
    refine length_eq_of_mem_iff n2 n1 ?_
    intro e
    unfold stored
    rw [List.mem_append, List.mem_append (s := lv), hmem e]
  le := by
    intro ht
    have := h.le ht
    unfold stored at *
    rw [List.length_append] at this ⊢
    rw [hnt]
    omega
  snap := by
    intro hn
    obtain ⟨h1, h2, h3, h4, h5⟩ := hsnap hn
    have hs := h.snap h1
    refine ⟨by rw [h2]; exact hs.val, by rw [h2, h3]; exact hs.above, ?_, by rw [h3]; exact hs.le.trans h5⟩
    intro e he
    rw [h2, h4] at he
    exact (hmem e).2 (hs.sub e he)
  vis := by
    intro e he
    rcases h.vis e he with h1 | h1
    · exact Or.inl h1
    · right
      cases hn' : s'.needs with
      | true =>
        obtain ⟨h2, h3, h4, h5, _⟩ := hsnap hn'
        rcases h1 with ⟨_, h1⟩ | ⟨h1, _⟩
        · left; rw [h3, h5]; exact ⟨hn', h1⟩
        · rw [h2] at h1; cases h1
      | false =>
        right
        have hp' := (hst.idle hn').2.1
        refine ⟨hn', ?_⟩
        have key : e ∈ pend s' w' ++ flat K s'.g.ks → e ∈ flat K s'.g.ks := by rw [hp']; exact id
        refine key ((hmem e).2 ?_)
        rcases h1 with ⟨h1, h2⟩ | ⟨_, h2⟩
        · exact (h.snap h1).sub e h2
        · exact List.mem_append_right _ h2
  tot := fun ht => htot ht (h.tot ht)

/-- A worker step that changes neither the object nor the pending edges. -/
theorem J.pc {S : Sizing} {c : JC} {lv cv : List Edge} {x : Nat} {s : BG K} {w w' : WPC K.T}
    (h : J S c lv cv x s w) (hp : pend s w' = pend s w) (hst : Stage c.n cv s w')
    (htot : c.tot → Tot S c s w → Tot S c s w') : J S c lv cv x s w' :=
  h.regroup (by rw [hp]; intro e; rfl) (by rw [hp]; intro e; exact Nat.le_refl _)
    (by rw [hp]) rfl rfl rfl rfl h.len h.val h.above h.maxR hst h.cvn (fun hn => ⟨hn, rfl, rfl, rfl, by first | exact Nat.le_refl _ | exact Nat.le_max_right _ _⟩) htot

/-- The merge step `tmp->unionOp(k_collection[j]); k_collection[j].reset()`. -/
theorem merge_group (hK : K.Lawful) {n : Nat} {ks : List (Option K.T)} {tmp t : K.T} {j : Nat}
    (hv : AllValid K n ks) (ht : K.valid n tmp) (hj : ks[j]? = some (some t)) :
    (∀ e, (e ∈ K.edges (K.union tmp t) ++ flat K (ks.set j none)) ↔ e ∈ K.edges tmp ++ flat K ks) ∧
    (∀ e, (K.edges (K.union tmp t) ++ flat K (ks.set j none)).count e ≤
      (K.edges tmp ++ flat K ks).count e) ∧
    (K.edges (K.union tmp t) ++ flat K (ks.set j none)).length ≤ (K.edges tmp ++ flat K ks).length := by
  have hlt : j < ks.length := (List.getElem?_eq_some_iff.1 hj).1
  have hvt : K.valid n t := hv t (List.mem_of_getElem? hj)
  have hu := hK.union_edges n tmp t ht hvt
  have hvu := hK.union_valid n tmp t ht hvt
  rw [flat_set_some hlt, flat_get hj]
  have hcu : ∀ e, (K.edges (K.union tmp t)).count e ≤ (K.edges tmp).count e + (K.edges t).count e := by
    intro e
    rw [count_edges hK hvu, count_edges hK ht, count_edges hK hvt]
    have := hu e
    split <;> split <;> split <;> first | omega | (exfalso; simp_all)
  refine ⟨?_, ?_, ?_⟩
  · intro e
    simp only [oedges, List.mem_append, hu e, List.not_mem_nil, false_or]
    tauto
  · intro e
    simp only [oedges, List.count_append, List.count_nil]
    have := hcu e
    omega
  · have : (K.edges (K.union tmp t)).length ≤ (K.edges tmp ++ K.edges t).length := by
      have hsub : K.edges (K.union tmp t) ⊆ K.edges tmp ++ K.edges t := by
        intro e he; rw [List.mem_append]; exact (hu e).1 he
      exact ((hK.edges_nodup n _ hvu).subperm hsub).length_le
    simp only [oedges, List.length_append, List.length_nil] at *
    omega

/-- The invariant survives every worker step. -/
theorem J.wstep (hK : K.Lawful) {S : Sizing} {c : JC} {lv cv : List Edge} {x : Nat} {s s' : BG K}
    {w w' : WPC K.T} (h : J S c lv cv x s w)
    (hs : wstep S s w = .ok (s', w')) : J S c lv cv x s' w' := by
  cases w with
  | top =>
    simp only [BG.wstep, h.run, if_true] at hs
    cases hs
    exact h.pc rfl h.stage (fun _ t => ⟨t.two, t.rare, t.c0m, t.trees, t.tmp, t.room⟩)
  | test =>
    simp only [BG.wstep] at hs
    cases hs
    by_cases hn : s.needs = true
    · simp only [hn, if_true]
      exact h.pc (by simp [pend]) ⟨hn, h.stage.1 hn⟩ (fun _ t => ⟨t.two, t.rare, t.c0m, t.trees, trivial, t.room⟩)
    · simp only [hn, if_false, Bool.false_eq_true]
      exact h.pc rfl h.stage (fun _ t => ⟨t.two, t.rare, t.c0m, t.trees, trivial, t.room⟩)
  | build =>
    simp only [BG.wstep] at hs
    cases hs
    obtain ⟨hn, hb1, hb2⟩ := h.stage
    have hb2' : ∀ e ∈ s.conv, InRange s.g.nv e := by rw [h.nv]; exact hb2
    have hbe := hK.build_edges s.conv s.g.nv hb1 hb2'
    have hbv := hK.build_valid s.conv s.g.nv hb1 hb2'
    rw [h.nv] at hbv
    have hbn := hK.edges_nodup _ _ hbv
    have hp : pend s .build = s.conv := by simp [pend, hn]
    have hbe' : ∀ e, e ∈ K.edges (K.build s.conv c.n) ↔ e ∈ s.conv := by rw [← h.nv]; exact hbe
    have hln := length_eq_of_mem_iff hbn hb1 hbe'
    refine h.regroup ?_ ?_ ?_ rfl rfl rfl rfl h.len h.val h.above h.maxR ⟨hn, rfl, by rw [h.nv]; exact hbv⟩
      h.cvn (fun hn => ⟨hn, rfl, rfl, rfl, by first | exact Nat.le_refl _ | exact Nat.le_max_right _ _⟩) ?_
    · intro e; rw [hp]; simp only [pend, List.mem_append, h.nv, hbe' e]
    · intro e
      rw [hp]
      simp only [pend, List.count_append, h.nv]
      have : (K.edges (K.build s.conv c.n)).count e ≤ s.conv.count e := by
        rw [count_edges hK hbv]
        split
        · exact List.count_pos_iff.2 ((hbe' e).1 ‹_›)
        · omega
      omega
    · rw [hp]; simp only [pend, List.length_append, h.nv, hln]; exact Nat.le_refl _
    · intro _ t
      exact ⟨t.two, t.rare, t.c0m, t.trees, hK.build_marked s.conv s.g.nv hb1 hb2', fun a _ => t.room a trivial⟩
  | search tmp =>
    simp only [BG.wstep] at hs
    split at hs
    · cases hs
    · rename_i i hi
      cases hs
      obtain ⟨hn, hcv, hv⟩ := h.stage
      have hlt := (selectLevel_lt S _ _ _ _ _ hi).2
      rw [Nat.zero_add, h.len] at hlt
      refine h.regroup (by intro e; rfl) (by intro e; exact Nat.le_refl _) (Nat.le_refl _) rfl rfl rfl rfl
        h.len h.val ?_ ?_ ⟨hn, hcv, hv, ?_, hlt, by omega, by intro j' hj'; omega⟩
        h.cvn (fun hn => ⟨hn, rfl, rfl, rfl, by first | exact Nat.le_refl _ | exact Nat.le_max_right _ _⟩) ?_
      · intro j t hj
        have := h.above j t hj
        simp only; omega
      · have := h.maxR; simp only; omega
      · simp only; omega
      · intro _ t
        exact ⟨t.two, t.rare, t.c0m, t.trees, t.tmp, fun _ hh => absurd hh (by simp [Early])⟩
  | merge tmp i j =>
    obtain ⟨hn, hcv, hv, hi, hiR, hji, hj⟩ := h.stage
    simp only [BG.wstep] at hs
    split at hs
    · rename_i hle
      split at hs
      · cases hs
      · rename_i hg
        cases hs
        refine h.pc rfl ⟨hn, hcv, hv, hi, hiR, by omega, ?_⟩
          (fun _ t => ⟨t.two, t.rare, t.c0m, t.trees, t.tmp, fun _ hh => absurd hh (by simp [Early])⟩)
        intro j' hj'
        by_cases h1 : j' = j
        · rw [h1]; exact hg
        · exact hj j' (by omega)
      · rename_i t hg
        cases hs
        obtain ⟨m1, m2, m3⟩ := merge_group hK h.val hv hg
        have hvt : K.valid c.n t := h.val t (List.mem_of_getElem? hg)
        have hlt : j < s.g.ks.length := (List.getElem?_eq_some_iff.1 hg).1
        refine h.regroup m1 m2 m3 rfl rfl rfl rfl (by simp [h.len]) ?_ ?_ h.maxR
          ⟨hn, hcv, hK.union_valid _ _ _ hv hvt, hi, hiR, by omega, ?_⟩ h.cvn (fun hn => ⟨hn, rfl, rfl, rfl, by first | exact Nat.le_refl _ | exact Nat.le_max_right _ _⟩) ?_
        · intro u hu
          rcases List.mem_or_eq_of_mem_set hu with h1 | h1
          · exact h.val u h1
          · cases h1
        · intro a u ha
          simp only at ha
          rw [List.getElem?_set] at ha
          split at ha
          · cases ha
          · exact h.above a u ha
        · intro j' hj'
          simp only
          rw [List.getElem?_set]
          split
          · rfl
          · exact hj j' (by omega)
        · intro _ tt
          refine ⟨tt.two, tt.rare, tt.c0m, ?_, hK.union_marked _ _ _ hv hvt, fun _ hh => absurd hh (by simp [Early])⟩
          have hm := DKD.marks_set (K := K) none hg
          have := tt.trees
          simp only [Option.elim] at hm
          simp only
          omega
    · rename_i hle
      cases hs
      exact h.pc rfl ⟨hn, hcv, hv, hi, hiR, hj i (by omega)⟩
        (fun _ t => ⟨t.two, t.rare, t.c0m, t.trees, t.tmp, fun _ hh => absurd hh (by simp [Early])⟩)
  | store tmp i =>
    obtain ⟨hn, hcv, hv, hi, hiR, hk⟩ := h.stage
    simp only [BG.wstep] at hs
    have hlt : i < s.g.ks.length := by rw [h.len]; exact hiR
    rw [wr_of hlt] at hs
    simp only [Res.ok_bind] at hs
    cases hs
    have e1 : ∀ e, (e ∈ flat K (s.g.ks.set i (some tmp))) ↔ e ∈ K.edges tmp ++ flat K s.g.ks := by
      intro e
      rw [flat_set_some hlt, flat_get hk]
      simp only [oedges, List.mem_append, List.not_mem_nil, false_or]
      tauto
    refine h.regroup ?_ ?_ ?_ rfl rfl rfl rfl (by simp [h.len]) ?_ ?_ h.maxR ⟨hn, hcv⟩
      h.cvn (fun hn => ⟨hn, rfl, rfl, rfl, by first | exact Nat.le_refl _ | exact Nat.le_max_right _ _⟩) ?_
    · intro e; simpa [pend] using e1 e
    · intro e
      simp only [pend, List.nil_append]
      rw [flat_set_some hlt, flat_get hk]
      simp only [oedges, List.count_append, List.count_nil]
      omega
    · simp only [pend, List.nil_append]
      rw [flat_set_some hlt, flat_get hk]
      simp only [oedges, List.length_append, List.length_nil]
      omega
    · intro u hu
      rcases List.mem_or_eq_of_mem_set hu with h1 | h1
      · exact h.val u h1
      · cases h1; exact hv
    · intro a u ha
      simp only at ha
      rw [List.getElem?_set] at ha
      split at ha
      · simp only; omega
      · exact h.above a u ha
    · intro _ t
      refine ⟨t.two, t.rare, t.c0m, ?_, trivial, fun _ hh => absurd hh (by simp [Early])⟩
      have hm := DKD.marks_set (K := K) (some tmp) hk
      have := t.trees
      have h0 : K.marked tmp = 0 := t.tmp
      simp only [Option.elim] at hm
      simp only
      omega
  | finish =>
    obtain ⟨hn, hcv⟩ := h.stage
    simp only [BG.wstep] at hs
    cases hs
    refine h.regroup (by intro e; simp [pend]) (by intro e; simp [pend]) (by simp [pend]) rfl rfl rfl rfl
      h.len h.val h.above h.maxR ⟨fun hh => absurd hh (by simp), fun _ => by rw [h.cvn hn]; exact hcv⟩
      (fun hh => absurd hh (by simp))
      (fun hh => absurd hh (by simp)) ?_
    intro _ t
    exact ⟨t.two, t.rare, t.c0m, t.trees, trivial, fun hh => absurd hh (by simp)⟩
  | stopped => exact absurd h.stage id


/-- When few edges have been deleted the worker never fails. -/
theorem J.wok (hK : K.Lawful) {S : Sizing} (hT : S.Top) {c : JC} {lv cv : List Edge} {x : Nat} {s : BG K}
    {w : WPC K.T} (h : J S c lv cv x s w) (ht : c.tot) : ∃ r, BG.wstep S s w = .ok r := by
  cases w with
  | search tmp =>
    have t := h.tot ht
    obtain ⟨hn, _, _⟩ := h.stage
    obtain ⟨r1, r2⟩ := t.room hn trivial
    have hsum := totals_eq hK h.val
    have htr := t.trees
    obtain ⟨r, hr⟩ := selectLevel_some S s.maxSb s.g.ks 0 (S.maxsz s.maxSb 0) (s.maxSb + c.k) (by
        intro l hl
        have : l + 1 = RS := by rw [hl, h.len]; simp
        rw [this, hT]; omega)
      (by intro hh; have := h.len; rw [hh] at this; simp [RS] at this)
      (by rw [hsum]; omega)
    simp only [BG.wstep, hr]
    exact ⟨_, rfl⟩
  | merge tmp i j =>
    obtain ⟨_, _, _, _, hiR, _, _⟩ := h.stage
    simp only [BG.wstep]
    split
    · rename_i hle
      have hlt : j < s.g.ks.length := by rw [h.len]; omega
      rw [List.getElem?_eq_getElem hlt]
      cases s.g.ks[j] <;> exact ⟨_, rfl⟩
    · exact ⟨_, rfl⟩
  | store tmp i =>
    obtain ⟨_, _, _, _, hiR, _⟩ := h.stage
    simp only [BG.wstep]
    rw [wr_of (by rw [h.len]; exact hiR)]
    exact ⟨_, rfl⟩
  | _ => exact ⟨_, rfl⟩

/-- Whatever happened, the only way the worker can fail is the exception of line 50. -/
theorem J.wfail {S : Sizing} {c : JC} {lv cv : List Edge} {x : Nat} {s : BG K}
    {w : WPC K.T} (h : J S c lv cv x s w) : (∃ r, BG.wstep S s w = .ok r) ∨ BG.wstep S s w = .throws := by
  cases w with
  | search tmp =>
    simp only [BG.wstep]
    split
    · exact Or.inr rfl
    · exact Or.inl ⟨_, rfl⟩
  | merge tmp i j =>
    left
    obtain ⟨_, _, _, _, hiR, _, _⟩ := h.stage
    simp only [BG.wstep]
    split
    · rename_i hle
      have hlt : j < s.g.ks.length := by rw [h.len]; omega
      rw [List.getElem?_eq_getElem hlt]
      cases s.g.ks[j] <;> exact ⟨_, rfl⟩
    · exact ⟨_, rfl⟩
  | store tmp i =>
    left
    obtain ⟨_, _, _, _, hiR, _⟩ := h.stage
    simp only [BG.wstep]
    rw [wr_of (by rw [h.len]; exact hiR)]
    exact ⟨_, rfl⟩
  | _ => exact Or.inl ⟨_, rfl⟩

end BG
end DK2
