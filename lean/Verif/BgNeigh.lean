import Verif.BgLive
import Verif.PropsBg
/-!
# `list_neighbour` of `DKtree_background` while a merge is pending

`list_neighbour` races with the worker then (C38); its answers are those of the interleaving model of `Conc`.
-/

namespace DK2
namespace BG
open DK
variable {K : K2Impl}

/-- The worker, with its accesses not recorded (for a call that races with it). -/
def deaf (K : K2Impl) (S : Sizing) : Worker (BG K) (WPC K.T) BLoc := ⟨wstep S, fun _ => .none⟩

theorem _root_.DK2.Exec.deaf {S : Sizing} {α : Type} {p p' : BProg K α} {s s' : BG K} {w w' : WPC K.T}
    (h : Exec (worker K S) p s w p' s' w') : Exec (deaf K S) p s w p' s' w' := by
  induction h with
  | start => exact .start
  | caller _ hs ih => exact .caller ih hs
  | worker _ hs ih => exact .worker ih hs

theorem _root_.DK2.Exec.undeaf {S : Sizing} {α : Type} {p p' : BProg K α} {s s' : BG K} {w w' : WPC K.T}
    (h : Exec (BG.deaf K S) p s w p' s' w') : Exec (worker K S) p s w p' s' w' := by
  induction h with
  | start => exact .start
  | caller _ hs ih => exact .caller ih hs
  | worker _ hs ih => exact .worker ih hs

theorem not_conflict_deaf (a : Acc BLoc) : ¬ a.Conflict (Acc.none : Acc BLoc) := by
  simp [Acc.none, Acc.Conflict]

/-- The worker never lowers `max_r`. -/
theorem wstep_maxR {S : Sizing} {s s' : BG K} {w w' : WPC K.T} (h : wstep S s w = .ok (s', w')) :
    s.g.maxR ≤ s'.g.maxR := by
  cases w with
  | top => simp only [wstep] at h; cases h; exact Nat.le_refl _
  | test => simp only [wstep] at h; cases h; exact Nat.le_refl _
  | build => simp only [wstep] at h; cases h; exact Nat.le_refl _
  | search t =>
    simp only [wstep] at h
    split at h
    · cases h
    · cases h; exact Nat.le_max_right _ _
  | merge t i j =>
    simp only [wstep] at h
    split at h
    · split at h
      · cases h
      · cases h; exact Nat.le_refl _
      · cases h; exact Nat.le_refl _
    · cases h; exact Nat.le_refl _
  | store t i =>
    simp only [wstep] at h
    rw [Res.bind_eq_ok] at h
    obtain ⟨ks, _, h⟩ := h
    cases h; exact Nat.le_refl _
  | finish => simp only [wstep] at h; cases h; exact Nat.le_refl _
  | stopped => simp only [wstep] at h; cases h; exact Nat.le_refl _

section
variable (hK : K.Lawful) (S : Sizing)
include hK

/-- `list_neighbour` at any moment: it lists only visible edges, and every edge known to be visible. -/
theorem listNeighbour_pending (c : JC) {x : Nat} (hx : x < c.n) :
    Ok (deaf K S) (fun _ _ => True) True (listNeighbour x) (JJ S c) (fun l s w =>
      JJ S c s w ∧ (∀ y ∈ l, (x, y) ∈ s.g.c0.live ∨ Seen s (x, y)) ∧ (∀ y, c.V (x, y) → y ∈ l)) := by
  have hvis : ∀ l : List Nat, Stable (deaf K S) (fun s w => JJ S c s w ∧
      (∀ y ∈ l, (x, y) ∈ s.g.c0.live ∨ Seen s (x, y)) ∧ (∀ y, c.V (x, y) → y ∈ l)) := by
    intro l s w s' w' ⟨h, h1, h2⟩ hw
    exact ⟨JJ_stable hK S _ _ _ _ _ h hw, fun y hy => (seen_stable hK S s w s' w' ⟨h, h1 y hy⟩ hw).2, h2⟩
  refine Ok.bind (R := fun l s w => JJ S c s w ∧ ∀ y, y ∈ l ↔ (x, y) ∈ s.g.c0.live) _ ?_ ?_
  · refine Ok.read _ (JJ_stable hK S c) (fun _ _ _ => not_conflict_deaf _) ?_ ?_ ?_ (fun _ _ _ => trivial)
      (fun _ _ _ _ => trivial)
    · intro _ s w h; exact ⟨_, h.c0wf.listNeighbours_eq x⟩
    · intro s w l h hl
      rw [h.c0wf.listNeighbours_eq x] at hl
      cases hl
      exact ⟨h, fun y => by simp⟩
    · intro l s w s' w' ⟨h, h1⟩ hw
      exact ⟨JJ_stable hK S _ _ _ _ _ h hw, by rw [(wstep_frame hw).1]; exact h1⟩
  · intro l
    refine Ok.bind (R := fun nd s w => JJ S c s w ∧ (∀ y, y ∈ l ↔ (x, y) ∈ s.g.c0.live) ∧
      (nd = true → AllValid K c.n s.bks ∧ (∀ i t, s.bks[i]? = some (some t) → i ≤ s.maxRb) ∧ s.maxRb ≤ s.g.maxR ∧
        (∀ e', (e' = s.tmpEdge ∨ e' ∈ flat K s.bks) → e' ∈ s.g.c0.live ∨ Seen s e') ∧
        (∀ y, c.V (x, y) → (x, y) ∈ s.g.c0.live ∨ (x, y) = s.tmpEdge ∨ (x, y) ∈ flat K s.bks)) ∧
      (nd = false → s.needs = false)) _ ?_ ?_
    · refine Ok.read _ ?_ (fun _ _ _ => not_conflict_deaf _) ?_ ?_ ?_ (fun _ _ _ => trivial)
        (fun _ _ _ _ => trivial)
      · intro s w s' w' ⟨h, h1⟩ hw
        exact ⟨JJ_stable hK S _ _ _ _ _ h hw, by rw [(wstep_frame hw).1]; exact h1⟩
      · intro _ s w _; exact ⟨_, rfl⟩
      · intro s w b ⟨h, hl⟩ hb
        cases hb
        refine ⟨h, hl, ?_, fun hh => hh⟩
        intro hn
        refine ⟨(h.snap hn).val, (h.snap hn).above, (h.snap hn).le, fun e' he' => Or.inr (Or.inl ⟨hn, he'⟩), ?_⟩
        intro y hv
        rcases h.vis _ hv with h1 | ⟨_, h1⟩ | ⟨h1, _⟩
        · exact Or.inl h1
        · exact Or.inr h1
        · rw [hn] at h1; cases h1
      · intro nd s w s' w' ⟨h, h1, h2, h3⟩ hw
        obtain ⟨f1, f2, f3, f4, f5, f6, f7⟩ := wstep_frame hw
        refine ⟨JJ_stable hK S _ _ _ _ _ h hw, by rw [f1]; exact h1, ?_, fun hb => f7 (h3 hb)⟩
        intro hb
        obtain ⟨a1, a2, a3, a4, a5⟩ := h2 hb
        rw [f4, f5, f6, f1]
        refine ⟨a1, a2, a3.trans (wstep_maxR hw), ?_, a5⟩
        intro e' he'
        have := (seen_stable hK S s w s' w' ⟨h, a4 e' he'⟩ hw).2
        rw [f1] at this
        exact this
    · intro nd
      have hst : Stable (deaf K S) (fun s w => JJ S c s w ∧ (∀ y, y ∈ l ↔ (x, y) ∈ s.g.c0.live) ∧
          (nd = true → AllValid K c.n s.bks ∧ (∀ i t, s.bks[i]? = some (some t) → i ≤ s.maxRb) ∧ s.maxRb ≤ s.g.maxR ∧
            (∀ e', (e' = s.tmpEdge ∨ e' ∈ flat K s.bks) → e' ∈ s.g.c0.live ∨ Seen s e') ∧
            (∀ y, c.V (x, y) → (x, y) ∈ s.g.c0.live ∨ (x, y) = s.tmpEdge ∨ (x, y) ∈ flat K s.bks)) ∧
          (nd = false → s.needs = false)) := by
        intro s w s' w' ⟨h, h1, h2, h3⟩ hw
        obtain ⟨f1, f2, f3, f4, f5, f6, f7⟩ := wstep_frame hw
        refine ⟨JJ_stable hK S _ _ _ _ _ h hw, by rw [f1]; exact h1, ?_, fun hb => f7 (h3 hb)⟩
        intro hb
        obtain ⟨a1, a2, a3, a4, a5⟩ := h2 hb
        rw [f4, f5, f6, f1]
        refine ⟨a1, a2, a3.trans (wstep_maxR hw), ?_, a5⟩
        intro e' he'
        have := (seen_stable hK S s w s' w' ⟨h, a4 e' he'⟩ hw).2
        rw [f1] at this
        exact this
      have hret : ∀ r : List Nat, Ok (deaf K S) (fun _ _ => True) True (Prog.ret (L := BLoc) (l ++ r))
          (fun s w => JJ S c s w ∧
            (∀ y ∈ l ++ r, (x, y) ∈ s.g.c0.live ∨ Seen s (x, y)) ∧ (∀ y, c.V (x, y) → y ∈ l ++ r))
          (fun l s w => JJ S c s w ∧
            (∀ y ∈ l, (x, y) ∈ s.g.c0.live ∨ Seen s (x, y)) ∧ (∀ y, c.V (x, y) → y ∈ l)) :=
        fun r => Ok.ret _ (hvis _) (fun _ _ h => h) (fun _ _ _ => trivial)
      cases nd with
      | true =>
        rw [if_pos rfl]
        refine Ok.bind (R := fun r s w => JJ S c s w ∧
            (∀ y ∈ l ++ r, (x, y) ∈ s.g.c0.live ∨ Seen s (x, y)) ∧ (∀ y, c.V (x, y) → y ∈ l ++ r)) _ ?_ hret
        refine Ok.read _ hst (fun _ _ _ => not_conflict_deaf _) (fun _ s w _ => ⟨_, rfl⟩) ?_ (fun r => hvis _)
          (fun _ _ _ => trivial) (fun _ _ _ _ => trivial)
        intro s w r ⟨h, hl, h2, _⟩ hr
        cases hr
        obtain ⟨a1, a2, a3, a4, a5⟩ := h2 rfl
        have htk : flat K (s.bks.take (s.g.maxR + 1)) = flat K s.bks :=
          take_flat (g := { s.g with ks := s.bks, maxR := s.g.maxR }) (fun i t hi => (a2 i t hi).trans a3)
        have hm := treesNeigh_mem hK hx (a1.take (i := s.g.maxR + 1))
        rw [htk] at hm
        have hsn : ∀ y, y ∈ s.snapNeigh x ↔ (x, y) = s.tmpEdge ∨ (x, y) ∈ flat K s.bks := by
          intro y
          unfold snapNeigh
          rw [List.mem_append, hm y]
          refine or_congr_left ?_
          split
          · rename_i ht
            rw [List.mem_singleton, Prod.ext_iff]
            exact ⟨fun hh => ⟨ht.symm, hh⟩, fun hh => hh.2⟩
          · rename_i ht
            simp only [List.not_mem_nil, false_iff, Prod.ext_iff]
            exact fun hh => ht hh.1.symm
        refine ⟨h, ?_, ?_⟩
        · intro y hy
          rcases List.mem_append.1 hy with hy | hy
          · exact Or.inl ((hl y).1 hy)
          · exact a4 _ ((hsn y).1 hy)
        · intro y hv
          rw [List.mem_append, hl y, hsn y]
          exact a5 y hv
      | false =>
        rw [if_neg Bool.false_ne_true]
        refine Ok.bind (R := fun r s w => JJ S c s w ∧
            (∀ y ∈ l ++ r, (x, y) ∈ s.g.c0.live ∨ Seen s (x, y)) ∧ (∀ y, c.V (x, y) → y ∈ l ++ r)) _ ?_ hret
        refine Ok.read _ hst (fun _ _ _ => not_conflict_deaf _) (fun _ s w _ => ⟨_, rfl⟩) ?_ (fun r => hvis _)
          (fun _ _ _ => trivial) (fun _ _ _ _ => trivial)
        intro s w r ⟨h, hl, _, h4⟩ hr
        cases hr
        have hn := h4 rfl
        have hm := treesNeigh_mem hK hx (h.val.take (i := s.g.maxR + 1))
        rw [take_flat h.above] at hm
        refine ⟨h, ?_, ?_⟩
        · intro y hy
          rcases List.mem_append.1 hy with hy | hy
          · exact Or.inl ((hl y).1 hy)
          · exact Or.inr (Or.inr ⟨hn, (hm y).1 hy⟩)
        · intro y hv
          rw [List.mem_append, hl y, hm y]
          rcases h.vis _ hv with h5 | ⟨h5, _⟩ | ⟨_, h5⟩
          · exact Or.inl h5
          · rw [hn] at h5; cases h5
          · exact Or.inr h5

end

/-- `list_neighbour` returns at every moment, and what it answers. -/
theorem listNeighbour_answers (hK : K.Lawful) (S : Sizing) {c : JC} {x : Nat} (hx : x < c.n) {s : BG K}
    {w : WPC K.T} (h : JJ S c s w) :
    Answers S (listNeighbour x) s w (fun l => (∀ y ∈ l, c.G (x, y)) ∧ ∀ y, c.V (x, y) → y ∈ l) := by
  have hok := listNeighbour_pending hK S c hx
  refine ⟨?_, ?_⟩
  · obtain ⟨a, s', h1⟩ := Ok.returns_alone hok (listNeighbour_noWait x) h
    exact ⟨a, s', w, h1.undeaf⟩
  · intro l s' w' hx
    obtain ⟨h1, h2, h3⟩ := hok.post _ h hx.deaf
    exact ⟨fun y hy => J.seen_mem h1 (h2 y hy), h3⟩

/-- C37: on every schedule, at every moment, `list_neighbour` lists every neighbour in the graph. -/
def C37_Neighbours_Full (wv : Bool) : Prop :=
  ∀ K : K2Impl, K.Lawful → ∀ n ops (s : BG K) w, OpsInRange n ops → Reach wv K realSizing n ops s w →
    ∀ x y, InRange n (x, y) → specMem ops (x, y) → Answers realSizing (listNeighbour x) s w (fun l => y ∈ l)

/-- The neighbour of vertex 0 in `evHidden` is not listed until the worker is done. -/
theorem C37_neighbours_refuted (wv : Bool) : ¬ C37_Neighbours_Full wv := by
  intro h
  have hx : playTest wv hybSizing 5 evHidden (fun s w =>
      callTest hybSizing (listNeighbour 0) 3 (fun l => !l.contains 1) s w) = true := by
    cases wv <;> decide +kernel
  obtain ⟨s, w, h1, h2⟩ := playTest_sound (by decide) hx
  obtain ⟨l, s', w', h3, h4⟩ := callTest_sound (p := fun _ => listNeighbour 0) h2
  have h5 := (h refK2 refK2_lawful 5 _ s w (by decide) h1 0 1 (by decide) (by decide)).2 l s' w' h3
  simp only at h5
  rw [List.contains_iff_mem.2 h5] at h4
  cases h4

/-- On every history and schedule, at every moment: `list_neighbour(x)` returns; it lists only neighbours of `x`
in the graph, or along edges deleted after having been inserted while present; what it lists, `contains` confirms;
and what `contains` confirms, it lists, whatever the worker does in between. -/
theorem C37_neighbours_partial (hK : K.Lawful) (S : Sizing) (wv : Bool) {n : Nat} {ops : List Op} {s : BG K}
    {w : WPC K.T} (ho : OpsInRange n ops) (hr : Reach wv K S n ops s w) {x : Nat} (hx : x < n) :
    Answers S (listNeighbour x) s w (fun l => ∀ y ∈ l, specMem ops (x, y) ∨ Ghost ops (x, y)) ∧
    (∀ l s' w', Exec (worker K S) (listNeighbour x) s w (.ret l) s' w' → ∀ y ∈ l, y < n →
      Answers S (contains (x, y)) s' w' (fun b => b = true)) ∧
    (∀ y s' w', y < n → Exec (worker K S) (contains (x, y)) s w (.ret true) s' w' →
      Answers S (listNeighbour x) s' w' (fun l => y ∈ l)) := by
  obtain ⟨c, hc⟩ := hr.track hK ho
  have hx' : x < c.n := hc.n ▸ hx
  refine ⟨?_, ?_, ?_⟩
  · obtain ⟨h1, h2⟩ := listNeighbour_answers hK S hx' hc.inv
    exact ⟨h1, fun l s' w' he y hy => hc.only _ ((h2 l s' w' he).1 y hy)⟩
  · intro l s' w' he y hy hyn
    obtain ⟨h1, h2, _⟩ := (listNeighbour_pending hK S c hx').post _ hc.inv he.deaf
    have hr' : InRange c.n (x, y) := ⟨hx', hc.n ▸ hyn⟩
    have hok := contains_ok hK S c hr' True (tg := False) False.elim
    obtain ⟨a, s2, h3⟩ := Ok.returns_alone hok (contains_noWait (x, y)) h1
    exact ⟨⟨a, s2, w', h3⟩, fun b s2 w2 hx2 => seen_again hK S hr' h1 (h2 y hy) hx2⟩
  · intro y s' w' hyn he
    have hr' : InRange c.n (x, y) := ⟨hx', hc.n ▸ hyn⟩
    obtain ⟨h1, h2, _⟩ := (contains_ok hK S c hr' True (tg := False) False.elim).post _ hc.inv he
    have h' : JJ S { c with V := fun e' => e' = (x, y) } s' w' :=
      J.congr h1 rfl (fun _ => Iff.rfl) (fun _ h => h) (fun e' he' => he' ▸ h2 rfl) id
    obtain ⟨a1, a2⟩ := listNeighbour_answers hK S (c := { c with V := fun e' => e' = (x, y) }) hx' h'
    exact ⟨a1, fun l s2 w2 h3 => (a2 l s2 w2 h3).2 y rfl⟩

/-- The neighbour inserted last is listed at once, on every history and schedule. -/
theorem C37_last_neighbour_partial (hK : K.Lawful) (S : Sizing) (wv : Bool) {n : Nat} {ops : List Op} {x y : Nat}
    {s : BG K} {w : WPC K.T} (ho : OpsInRange n (ops ++ [.add (x, y)]))
    (hr : Reach wv K S n (ops ++ [.add (x, y)]) s w) :
    Answers S (listNeighbour x) s w (fun l => y ∈ l) := by
  obtain ⟨c, hc⟩ := hr.track hK ho
  have hx : x < n := (ho (.add (x, y)) (by simp)).1
  obtain ⟨h1, h2⟩ := listNeighbour_answers hK S (hc.n ▸ hx) hc.inv
  exact ⟨h1, fun l s' w' he => (h2 l s' w' he).2 y (hc.last ops (x, y) rfl)⟩

/-- Non-vacuity: with a merge pending and the new neighbour in the buffer; the graph is in range. -/
example (wv : Bool) : ∃ (s : BG refK2) (w : WPC refK2.T),
    Reach wv refK2 realSizing 5 ([.add (0, 1)] ++ [.add (1, 2)]) s w ∧ s.needs = true ∧
    OpsInRange 5 ([.add (0, 1)] ++ [.add (1, 2)]) := by
  have hx : playTest wv hybSizing 5 evHidden (fun s _ => s.needs) = true := by cases wv <;> decide +kernel
  obtain ⟨s, w, h1, h2⟩ := playTest_sound (by decide) hx
  exact ⟨s, w, h1, h2, by decide⟩

end BG
end DK2
