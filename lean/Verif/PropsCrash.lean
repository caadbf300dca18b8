import Verif.Crash
/-!
# Property theorems: clearing and interrupted serialization (C73–C75)
-/

namespace DK2
open DK FileOp

variable {K : K2Impl}

/-! ## C73 load with clearing -/

/-- C73: for any graph object `x`, any directory `d` and any reachable graph `g` of the kind C22 covers:
`load(…, true)` fails exactly as `load` does, or gives the same graph as `load` and leaves an empty directory; loading
from it again throws; and serializing `g` into it and loading gives `g` back, whatever files `d` held (compare
`C23_refuted`). -/
theorem C73_clear (hK : K.Lawful) (S : Sizing) (x : DK K) (d : Dir K) :
    (∀ x', x.load S d = .ok x' → ∃ d', x.loadClear S d = .ok (x', d') ∧ d'.hdr = none ∧ (∀ l, d'.kt l = none) ∧
      (∀ y : DK K, y.load S d' = .throws) ∧
      ∀ {S' : Sizing} {n : Nat} {ops : List Op} {g : DK K}, OpsInRange n ops → run K S' n ops = .ok g →
        g.c0.marked = 0 → g.NoneAbove →
        ∃ d'' g', g.serialize d' = .ok d'' ∧ (DK.blank K).load S d'' = .ok g' ∧ SameAnswers g g') ∧
    (∀ r, x.loadClear S d = .ok r → x.load S d = .ok r.1) ∧
    (x.load S d = .throws → x.loadClear S d = .throws) := by
  refine ⟨?_, ?_, ?_⟩
  · intro x' hx
    refine ⟨Dir.empty K, ?_, rfl, fun _ => rfl, fun y => rfl, ?_⟩
    · unfold loadClear; rw [hx]; rfl
    · intro S' n ops g ho hr hm ha
      exact C23_partial hK S' S ho hr hm ha _ (fun _ _ _ => rfl)
  · intro r hr
    unfold loadClear at hr
    obtain ⟨g', h1, h2⟩ := Res.bind_eq_ok.1 hr
    cases h2
    exact h1
  · intro h
    unfold loadClear; rw [h]; rfl

/-! ## C74 a crash during serialize -/

/-- The process stops somewhere inside `b.serialize` into the directory `d`: `p` files are complete, and with
`cut = some junk` file `p` is cut off. -/
def CrashDir (b : DK K) (p : Nat) (cut : Option (Option K.T)) (d : Dir K) : Dir K :=
  stopAt (b.fileOps b.c0.live) p cut d

/-- C74: `b` is serialized over an earlier serialization of `a`, and the process stops part-way.  A later `load` throws
or gives `a` or gives `b`. -/
def C74_Full : Prop :=
  ∀ (K : K2Impl), K.Lawful → K.ForcedPure → ∀ (n : Nat) (opsA opsB : List Op) (a b : DK K),
    OpsInRange n opsA → OpsInRange n opsB → run K realSizing n opsA = .ok a → run K realSizing n opsB = .ok b →
    a.c0.marked = 0 → b.c0.marked = 0 → a.NoneAbove → b.NoneAbove →
    ∀ d, a.serialize (Dir.empty K) = .ok d → ∀ p, p < (b.fileOps b.c0.live).length →
      (DK.blank K).load realSizing (CrashDir b p none d) = .throws ∨
      ∃ g', (DK.blank K).load realSizing (CrashDir b p none d) = .ok g' ∧ (SameAnswers a g' ∨ SameAnswers b g')

/-- Three edges in the second level. -/
def wSmall : List Op := [(0, 1), (0, 2), (0, 3)].map Op.add
/-- The same edges and three more in the third level, three others in the second. -/
def wLarge : List Op := [(0, 1), (0, 2), (0, 3), (1, 1), (1, 2), (1, 3), (2, 1), (2, 2), (2, 3)].map Op.add

/-- Without buffered edges `load` does not consult the thresholds. -/
theorem load_sizing (S S' : Sizing) (x : DK K) {d : Dir K} (h : ∀ h, d.hdr = some h → h.edges = []) :
    x.load S d = x.load S' d := by
  unfold load
  cases hd : d.hdr with
  | none => rfl
  | some v =>
    have hv := h v hd
    simp only [hv, C0.insertAll]

/-- A crash after the first file has been replaced: the loaded graph has lost an edge that both the old and the new
graph contain, while the complete call would have been read back correctly. -/
theorem C74_lost : ∃ (a b : DK refK2) (d d' : Dir refK2) (g g' : DK refK2),
    run refK2 realSizing 17 wSmall = .ok a ∧ run refK2 realSizing 17 wLarge = .ok b ∧
    (a.c0.marked = 0 ∧ b.c0.marked = 0 ∧ a.NoneAbove ∧ b.NoneAbove) ∧ a.serialize (Dir.empty refK2) = .ok d ∧
    1 < (b.fileOps b.c0.live).length ∧
    (DK.blank refK2).load realSizing (CrashDir b 1 none d) = .ok g' ∧ a.contains (0, 1) = .ok true ∧
    b.contains (0, 1) = .ok true ∧ g'.contains (0, 1) = .ok false ∧
    b.serialize d = .ok d' ∧ (DK.blank refK2).load realSizing d' = .ok g ∧ SameAnswers b g := by
  obtain ⟨b, hb, h1⟩ := real_check (n := 17) (ops := wLarge)
    (f := fun b => check (run refK2 tabSizing 17 wSmall) (fun a =>
      check (a.serialize (Dir.empty refK2)) (fun d => check ((DK.blank refK2).load tabSizing (CrashDir b 1 none d)) (fun g' =>
        decide (a.c0.marked = 0 ∧ b.c0.marked = 0 ∧ 1 < (b.fileOps b.c0.live).length ∧ a.contains (0, 1) = .ok true ∧
          b.contains (0, 1) = .ok true ∧ g'.contains (0, 1) = .ok false ∧ a.c0.live = [] ∧
          ((CrashDir b 1 none d).hdr.map Hdr.edges).getD [] = [] ∧
          (List.range 8).all (fun l => decide (b.ks[l]? = some none → d.kt l = none)) ∧ b.maxR < 8)))))
    (by decide) (by decide)
  obtain ⟨a, ha, h1⟩ := check_iff.1 h1
  obtain ⟨d, hd, h1⟩ := check_iff.1 h1
  obtain ⟨g', hg', h1⟩ := check_iff.1 h1
  obtain ⟨c1, c2, c3, c4, c5, c6, c7, c8, c9, c10⟩ := of_decide_eq_true h1
  rw [← real_run (by decide)] at ha
  rw [load_sizing tabSizing realSizing _ (by
    intro h hh; rw [hh] at c8; exact c8)] at hg'
  have na : a.NoneAbove := by
    obtain ⟨a', e1, _, _, e2⟩ := run_inserts refK2_lawful refK2_forcedPure realSizing_top (n := 17) (by omega)
      (es := [(0, 1), (0, 2), (0, 3)]) (by decide)
    rw [show inserts [(0, 1), (0, 2), (0, 3)] = wSmall from rfl, ha] at e1
    cases e1; exact e2.above
  have nb : b.NoneAbove := by
    obtain ⟨b', e1, _, _, e2⟩ := run_inserts refK2_lawful refK2_forcedPure realSizing_top (n := 17) (by omega)
      (es := [(0, 1), (0, 2), (0, 3), (1, 1), (1, 2), (1, 3), (2, 1), (2, 2), (2, 3)]) (by decide)
    rw [show inserts [(0, 1), (0, 2), (0, 3), (1, 1), (1, 2), (1, 3), (2, 1), (2, 2), (2, 3)] = wLarge from rfl, hb] at e1
    cases e1; exact e2.above
  obtain ⟨d', g, f1, f2, f3⟩ := C23_partial refK2_lawful realSizing realSizing (ops := wLarge) (n := 17) (by decide) hb c2
    nb d (by
      intro l hl hn
      have := List.all_eq_true.1 c9 l (List.mem_range.2 (by omega))
      exact of_decide_eq_true this hn)
  exact ⟨a, b, d, d', g, g', ha, hb, ⟨c1, c2, na, nb⟩, hd, c3, hg', c4, c5, c6, f1, f2, f3⟩

theorem C74_refuted : ¬ C74_Full := by
  intro h
  obtain ⟨a, b, d, _, _, g', ha, hb, ⟨h1, h2, h3, h4⟩, hd, hp, hl, c1, c2, c3, _⟩ := C74_lost
  rcases h refK2 refK2_lawful refK2_forcedPure 17 wSmall wLarge a b (by decide) (by decide) ha hb h1 h2 h3 h4 d hd 1 hp with
    h | ⟨g, h, hs⟩
  · rw [hl] at h; cases h
  · rw [hl] at h; cases h
    rcases hs with hs | hs
    · have := hs.2.2.1 (0, 1); rw [c1, c3] at this; cases this
    · have := hs.2.2.1 (0, 1); rw [c2, c3] at this; cases this

/-- The directory at a crash point: the old header before the header write is begun, none while it is written. -/
theorem CrashDir_cases {b : DK K} {p : Nat} (hp : p < (b.fileOps b.c0.live).length)
    (cut : Option (Option K.T)) (d : Dir K) :
    (CrashDir b p cut d).hdr = none ∨ ((CrashDir b p cut d).hdr = d.hdr ∧
      (cut = none → ∀ l t, (CrashDir b p cut d).kt l = some t → d.kt l = some t ∨ b.ks[l]? = some (some t))) := by
  have hlen : (b.fileOps b.c0.live).length = (b.levelOps (b.maxR + 1)).length + 1 := by
    rw [fileOps_eq]; simp
  have hle : p ≤ (b.levelOps (b.maxR + 1)).length := by omega
  have htake : (b.fileOps b.c0.live).take p = (b.levelOps (b.maxR + 1)).take p := by
    rw [fileOps_eq, List.take_append_of_le_length hle]
  have hlev : ∀ o ∈ (b.levelOps (b.maxR + 1)).take p, ∃ l t, o = level l t :=
    fun o ho => b.levelOps_level _ o (List.mem_of_mem_take ho)
  unfold CrashDir stopAt
  rw [htake]
  have hh := applyAll_levels_hdr hlev d
  have hk : ∀ l t, (applyAll ((b.levelOps (b.maxR + 1)).take p) d).kt l = some t →
      d.kt l = some t ∨ b.ks[l]? = some (some t) := by
    intro l t h
    rcases applyAll_kt h with h | h
    · exact Or.inl h
    · exact Or.inr (mem_levelOps (List.mem_of_mem_take h)).1
  cases cut with
  | none => exact Or.inr ⟨hh, fun _ => hk⟩
  | some junk =>
    rw [List.getElem?_eq_getElem hp]
    cases (b.fileOps b.c0.live)[p] with
    | level l t => exact Or.inr ⟨hh, fun h => by cases h⟩
    | header h => exact Or.inl rfl

/-- C74, first use of a directory: wherever the process stops (even inside a file), `load` throws; it never gives a
partial graph.  No hypothesis on the graph. -/
theorem C74_first_partial (S : Sizing) (b x : DK K) {d : Dir K} (hd : d.hdr = none) {p : Nat}
    (hp : p < (b.fileOps b.c0.live).length) (cut : Option (Option K.T)) :
    x.load S (CrashDir b p cut d) = .throws := by
  apply load_no_header
  rcases CrashDir_cases hp cut d with h | ⟨h, _⟩
  · exact h
  · rw [h, hd]

/-- C74 over an earlier serialization of `a`: wherever the process stops between two files, `load` gives a graph
without invented edges: it has the vertex count and the edge count of `a`, and each edge it contains belongs to the old
or to the new graph.  If it stops inside `0.kt`, `load` throws; if before the first file, the directory is unchanged; the
last crash point is the complete call.  Missing: edges of the old graph may be absent (`C74_lost`). -/
theorem C74_sound_partial (hK : K.Lawful) (S S' : Sizing) {n : Nat} {opsA opsB : List Op} {a b : DK K}
    (hoa : OpsInRange n opsA) (hob : OpsInRange n opsB) (hra : run K S n opsA = .ok a) (hrb : run K S n opsB = .ok b)
    (hma : a.c0.marked = 0) (hmb : b.c0.marked = 0) {d : Dir K} (hd : a.serialize (Dir.empty K) = .ok d) :
    (∀ p, p < (b.fileOps b.c0.live).length → ∃ g', (DK.blank K).load S' (CrashDir b p none d) = .ok g' ∧
      g'.numberNodes = n ∧ g'.numberEdges = a.numberEdges ∧
      ∀ e, InRange n e → g'.contains e = .ok true → a.contains e = .ok true ∨ b.contains e = .ok true) ∧
    (∀ p junk, p + 1 = (b.fileOps b.c0.live).length → ∀ x : DK K, x.load S' (CrashDir b p (some junk) d) = .throws) ∧
    CrashDir b 0 none d = d ∧
    b.serialize d = .ok (CrashDir b (b.fileOps b.c0.live).length none d) := by
  obtain ⟨wa, va, _⟩ := run_weak hK S hoa hra
  obtain ⟨wb, vb, _⟩ := run_weak hK S hob hrb
  rw [serialize_ok wa _ hma] at hd
  have hd := (Res.ok.inj hd).symm
  have hhdr : d.hdr = some ⟨a.maxR, a.nv, a.nTotal, a.c0.nVertices, a.c0.maxEdges, a.c0.live⟩ := by rw [hd]
  have hkt : ∀ l t, d.kt l = some t → a.ks[l]? = some (some t) := by
    intro l t h
    rw [hd] at h
    have h : a.writeLevels (Dir.empty K) l = some t := h
    unfold writeLevels at h
    split at h
    · cases hk : a.ks[l]? with
      | none => rw [hk] at h; cases h
      | some o => rw [hk] at h; cases o with
        | none => cases h
        | some u => cases h; rfl
    · cases h
  refine ⟨?_, ?_, rfl, ?_⟩
  · intro p hp
    have key : (CrashDir b p none d).hdr = d.hdr ∧
        ∀ l t, (CrashDir b p none d).kt l = some t → d.kt l = some t ∨ b.ks[l]? = some (some t) := by
      rcases CrashDir_cases hp none d with h | ⟨h1, h2⟩
      · exfalso
        have hlev : (CrashDir b p none d).hdr = d.hdr := by
          have hle : p ≤ (b.levelOps (b.maxR + 1)).length := by
            have : (b.fileOps b.c0.live).length = (b.levelOps (b.maxR + 1)).length + 1 := by rw [fileOps_eq]; simp
            omega
          unfold CrashDir stopAt
          rw [fileOps_eq, List.take_append_of_le_length hle]
          exact applyAll_levels_hdr (fun o ho => b.levelOps_level _ o (List.mem_of_mem_take ho)) d
        rw [hlev, hhdr] at h
        cases h
      · exact ⟨h1, h2 rfl⟩
    obtain ⟨g', b1, b2, b3, b4, b5, b6, b7⟩ := load_any (S := S') wa hma (d := CrashDir b p none d)
      (by rw [key.1, hhdr])
    refine ⟨g', b1, by show g'.nv = n; rw [b4, va], by show g'.nTotal = a.nTotal; exact b5, ?_⟩
    intro e he hc
    rcases (contains_true_iff b2).1 hc with h | ⟨l, t, h1, h2⟩
    · exact Or.inl ((contains_true_iff wa.c0wf).2 (Or.inl (by rw [← b3]; exact h)))
    · rw [b7] at h1
      rcases key.2 l t (readLevels_mem h1).2 with h | h
      · exact Or.inl ((contains_true_iff wa.c0wf).2 (Or.inr ⟨l, t, hkt l t h, h2⟩))
      · exact Or.inr ((contains_true_iff wb.c0wf).2 (Or.inr ⟨l, t, h, h2⟩))
  · intro p junk hp x
    apply load_no_header
    unfold CrashDir stopAt
    have : (b.fileOps b.c0.live)[p]? = some (.header ⟨b.maxR, b.nv, b.nTotal, b.c0.nVertices, b.c0.maxEdges, b.c0.live⟩) := by
      rw [fileOps_eq] at hp ⊢
      rw [List.length_append, List.length_singleton] at hp
      rw [List.getElem?_append_right (by omega)]
      rw [show p - (b.levelOps (b.maxR + 1)).length = 0 from by omega]
      rfl
    rw [this]
    rfl
  · rw [fileOps_serialize wb hmb]
    unfold CrashDir stopAt
    rw [List.take_length]

/-- `C74_sound_partial` applies to the witness of `C74_lost`. -/
example : ∃ (a b : DK refK2) (d : Dir refK2), run refK2 realSizing 17 wSmall = .ok a ∧
    run refK2 realSizing 17 wLarge = .ok b ∧ a.c0.marked = 0 ∧ b.c0.marked = 0 ∧
    a.serialize (Dir.empty refK2) = .ok d ∧ 1 < (b.fileOps b.c0.live).length := by
  obtain ⟨a, b, d, _, _, g', ha, hb, ⟨h1, h2, h3, h4⟩, hd, hp, _⟩ := C74_lost
  exact ⟨a, b, d, ha, hb, h1, h2, hd, hp⟩

/-! ## C75 a crash while clearing -/

/-- C75: `load(…, true)` is interrupted while it removes the files; whatever files are left, a later `load` throws or gives
the same graph. -/
def C75_Full : Prop :=
  ∀ (K : K2Impl), K.Lawful → K.ForcedPure → ∀ (n : Nat) (ops : List Op) (a : DK K),
    OpsInRange n ops → run K realSizing n ops = .ok a → a.c0.marked = 0 → a.NoneAbove →
    ∀ d, a.serialize (Dir.empty K) = .ok d → ∀ (hdrGone : Bool) (gone : Nat → Bool),
      (DK.blank K).load realSizing (d.without hdrGone gone) = .throws ∨
      ∃ g', (DK.blank K).load realSizing (d.without hdrGone gone) = .ok g' ∧ SameAnswers a g'

/-- `2.kt` is removed before `0.kt`: the graph read back has lost three edges. -/
theorem C75_refuted : ¬ C75_Full := by
  intro h
  obtain ⟨a, ha, h1⟩ := real_check (n := 17) (ops := wSmall)
    (f := fun a => check (a.serialize (Dir.empty refK2)) (fun d =>
      check ((DK.blank refK2).load tabSizing (d.without false (fun l => decide (l = 1)))) (fun g' =>
        decide (a.c0.marked = 0 ∧ a.contains (0, 1) = .ok true ∧ g'.contains (0, 1) = .ok false ∧
          (d.hdr.map Hdr.edges).getD [] = []))))
    (by decide) (by decide)
  obtain ⟨d, hd, h1⟩ := check_iff.1 h1
  obtain ⟨g', hg', h1⟩ := check_iff.1 h1
  obtain ⟨c1, c2, c3, c4⟩ := of_decide_eq_true h1
  rw [load_sizing tabSizing realSizing _ (by
    intro h hh
    have hh : d.hdr = some h := hh
    rw [hh] at c4; exact c4)] at hg'
  have na : a.NoneAbove := by
    obtain ⟨a', e1, _, _, e2⟩ := run_inserts refK2_lawful refK2_forcedPure realSizing_top (n := 17) (by omega)
      (es := [(0, 1), (0, 2), (0, 3)]) (by decide)
    rw [show inserts [(0, 1), (0, 2), (0, 3)] = wSmall from rfl, ha] at e1
    cases e1; exact e2.above
  rcases h refK2 refK2_lawful refK2_forcedPure 17 wSmall a (by decide) ha c1 na d hd false (fun l => decide (l = 1)) with
    h | ⟨g, h, hs⟩
  · rw [hg'] at h; cases h
  · rw [hg'] at h; cases h
    have := hs.2.2.1 (0, 1); rw [c2, c3] at this; cases this

/-- C75 where it holds: `load` throws exactly when `0.kt` is gone; otherwise it gives a graph with the counts of the
old one whose edges are edges of the old one, and the same graph if no level file is gone.  Missing: removed level files
(`C75_refuted`). -/
theorem C75_partial (hK : K.Lawful) (S S' : Sizing) {n : Nat} {ops : List Op} {a : DK K} (ho : OpsInRange n ops)
    (hr : run K S n ops = .ok a) (hm : a.c0.marked = 0) {d : Dir K} (hd : a.serialize (Dir.empty K) = .ok d)
    (hdrGone : Bool) (gone : Nat → Bool) :
    ((DK.blank K).load S' (d.without hdrGone gone) = .throws ↔ hdrGone = true) ∧
    (hdrGone = false → ∃ g', (DK.blank K).load S' (d.without hdrGone gone) = .ok g' ∧
      g'.numberNodes = a.numberNodes ∧ g'.numberEdges = a.numberEdges ∧
      (∀ e, g'.contains e = .ok true → a.contains e = .ok true) ∧
      (a.NoneAbove → (∀ l, l ≤ a.maxR → gone l = false) → SameAnswers a g')) := by
  obtain ⟨wa, va, _⟩ := run_weak hK S ho hr
  have hs := hd
  rw [serialize_ok wa _ hm] at hd
  have hd := (Res.ok.inj hd).symm
  have hhdr : d.hdr = some ⟨a.maxR, a.nv, a.nTotal, a.c0.nVertices, a.c0.maxEdges, a.c0.live⟩ := by rw [hd]
  have hkt : ∀ l t, d.kt l = some t → a.ks[l]? = some (some t) := by
    intro l t h
    rw [hd] at h
    have h : a.writeLevels (Dir.empty K) l = some t := h
    unfold writeLevels at h
    split at h
    · cases hk : a.ks[l]? with
      | none => rw [hk] at h; cases h
      | some o => rw [hk] at h; cases o with
        | none => cases h
        | some u => cases h; rfl
    · cases h
  have hok : hdrGone = false → ∃ g', (DK.blank K).load S' (d.without hdrGone gone) = .ok g' ∧ g'.c0.WF ∧
      g'.c0.live = a.c0.live ∧ g'.nv = a.nv ∧ g'.nTotal = a.nTotal ∧
      g'.maxR = a.maxR ∧ g'.ks = readLevels (d.without hdrGone gone) a.maxR (List.replicate RS none) := by
    intro hg
    exact load_any (S := S') wa hm (by subst hg; exact hhdr)
  refine ⟨⟨?_, ?_⟩, ?_⟩
  · intro h
    cases hh : hdrGone with
    | true => rfl
    | false =>
      obtain ⟨g', b1, _⟩ := hok hh
      rw [h] at b1; cases b1
  · intro h
    subst h
    exact load_no_header _ _ rfl
  · intro hg
    obtain ⟨g', b1, b2, b3, b4, b5, b6, b7⟩ := hok hg
    refine ⟨g', b1, b4, b5, ?_, ?_⟩
    · intro e hc
      rcases (contains_true_iff b2).1 hc with h | ⟨l, t, h1, h2⟩
      · exact (contains_true_iff wa.c0wf).2 (Or.inl (by rw [← b3]; exact h))
      · rw [b7] at h1
        have h3 := (readLevels_mem h1).2
        have h3 : (if gone l then none else d.kt l) = some t := h3
        split at h3
        · cases h3
        · exact (contains_true_iff wa.c0wf).2 (Or.inr ⟨l, t, hkt l t h3, h2⟩)
    · intro ha hgl
      obtain ⟨d'', g'', f1, f2, f3⟩ := C23_partial hK S S' ho hr hm ha (Dir.empty K) (fun _ _ _ => rfl)
      rw [hs] at f1; cases f1
      have : (DK.blank K).load S' (d.without hdrGone gone) = (DK.blank K).load S' d := by
        unfold load
        subst hg
        show (match d.hdr with | none => _ | some h => _) = _
        rw [hhdr]
        simp only
        congr 1
        funext c
        have : readLevels (d.without false gone) a.maxR (DK.blank K).ks = readLevels d a.maxR (DK.blank K).ks := by
          unfold readLevels
          apply List.ext_getElem?
          intro l
          rw [List.getElem?_mapIdx, List.getElem?_mapIdx]
          congr 1
          funext o
          by_cases hl : l ≤ a.maxR
          · rw [if_pos hl, if_pos hl]
            show (if gone l then none else d.kt l).orElse _ = _
            rw [hgl l hl]
            rfl
          · rw [if_neg hl, if_neg hl]
        rw [this]
      rw [this, f2] at b1
      cases b1
      exact f3

/-- A graph of one level meets the hypotheses. -/
example : ∃ (a : DK refK2) (d : Dir refK2), run refK2 realSizing 17 wSmall = .ok a ∧ a.c0.marked = 0 ∧ a.NoneAbove ∧
    a.serialize (Dir.empty refK2) = .ok d ∧ a.numberEdges = 3 := by
  obtain ⟨a, b, d, _, _, g', ha, hb, ⟨h1, h2, h3, h4⟩, hd, hp, _⟩ := C74_lost
  obtain ⟨a'', f1, f2⟩ := real_check (n := 17) (ops := wSmall) (f := fun a => decide (a.numberEdges = 3)) (by decide) (by decide)
  rw [ha] at f1; cases f1
  exact ⟨a, d, ha, h1, h3, hd, of_decide_eq_true f2⟩

end DK2
