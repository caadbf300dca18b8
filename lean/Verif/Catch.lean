import Verif.PropsGraph3
import Verif.PropsDelay
/-!
# Programs that catch the exception of `add_edge` (C82)

`add_edge` throws `logic_error("Error: collection too big...")` when no level fits.  The histories of the other files end
there.  Here the caller catches the exception and goes on with the object as the exception left it.
-/

namespace DK2
variable {K : K2Impl}

namespace DK

/-- `add_edge(x,y)` (DKtree.hpp:101-144) with the object it leaves behind when it throws (line 120): whether it threw, and
the object.  Everything written before line 120 is what `contains` does to the trees (`adj_forced`). -/
def addEdgeX (S : Sizing) (g : DK K) (e : Edge) : Res (Bool × DK K) := do
  let r ← g.containsForced e
  let g := r.2
  if r.1 then .ok (false, g)
  else
    let maxSize := S.maxsz (max g.nv g.nTotal) 0
    if g.c0.size < maxSize then do
      let c ← g.c0.insert S e g.nTotal
      .ok (false, { g with c0 := c, nTotal := g.nTotal + 1 })
    else
      match selectLevel K S (max g.nv g.nTotal) g.ks 0 maxSize with
      | none => .ok (true, g)
      | some i => do
        let conv ← g.c0.converted
        let tmp := K.build (conv ++ [e]) g.nv
        let c ← g.c0.clean
        let m := mergeUpTo K (i + 1) tmp g.ks
        .ok (false, { g with
          maxR := max i g.maxR
          c0 := c
          ks := m.2.set i (some m.1)
          nTotal := g.nTotal + 1 })

/-- One call whose exception, if any, is caught.  `del_edge` (DKtree.hpp:183-246) throws only through the `add_edge(1,1)`
of its reorganisation (line 220), which never happens (`C82_no_escape`), so it has no such version. -/
def stepX (S : Sizing) (g : DK K) : Op → Res (Bool × DK K)
  | .add e => g.addEdgeX S e
  | .del e => do
    let g' ← g.delEdge S e
    .ok (false, g')

/-- A history whose exceptions are caught: the calls that returned, in order, and the final object. -/
def runFromX (S : Sizing) : DK K → List Op → Res (List Op × DK K)
  | g, [] => .ok ([], g)
  | g, o :: os => do
    let r ← g.stepX S o
    let l ← runFromX S r.2 os
    .ok (if r.1 then l.1 else o :: l.1, l.2)

/-- The same on a graph built by `DKtree(n)`. -/
def runX (K : K2Impl) (S : Sizing) (n : Nat) (ops : List Op) : Res (List Op × DK K) := do
  let g ← create K S n
  runFromX S g ops

/-- `addEdgeX` is `add_edge`. -/
theorem addEdgeX_spec (S : Sizing) (g : DK K) (e : Edge) :
    g.addEdge S e = (g.addEdgeX S e >>= fun r => if r.1 then .throws else .ok r.2) := by
  unfold addEdge addEdgeX
  cases g.containsForced e with
  | ok r =>
    simp only [Res.ok_bind]
    split
    · rfl
    · split
      · cases r.2.c0.insert S e r.2.nTotal <;> rfl
      · generalize selectLevel K S (max r.2.nv r.2.nTotal) r.2.ks 0 (S.maxsz (max r.2.nv r.2.nTotal) 0) = q
        cases q with
        | none => rfl
        | some i =>
          cases r.2.c0.converted with
          | ok c =>
            simp only [Res.ok_bind]
            cases r.2.c0.clean <;> rfl
          | _ => rfl
  | _ => rfl

theorem addEdgeX_threw (hF : K.ForcedPure) {S : Sizing} {g g' : DK K} {e : Edge}
    (h : g.addEdgeX S e = .ok (true, g')) : g' = g ∧ g.contains e = .ok false := by
  unfold addEdgeX at h
  rw [containsForced_pure hF] at h
  cases hc : g.contains e with
  | ok b =>
    rw [hc] at h
    simp only [Res.ok_bind] at h
    cases b with
    | true => simp at h
    | false =>
      simp only [Bool.false_eq_true, if_false] at h
      split at h
      · rw [Res.bind_eq_ok] at h; obtain ⟨c, _, h⟩ := h; simp at h
      · split at h
        · simp at h; exact ⟨h.symm, rfl⟩
        · rw [Res.bind_eq_ok] at h; obtain ⟨c, _, h⟩ := h
          rw [Res.bind_eq_ok] at h; obtain ⟨c, _, h⟩ := h
          simp at h
  | _ => rw [hc] at h; simp at h

theorem runFromX_spec (hF : K.ForcedPure) (S : Sizing) : ∀ (ops : List Op) {g g' : DK K} {done : List Op},
    runFromX S g ops = .ok (done, g') → done.Sublist ops ∧ runFrom S g done = .ok g' := by
  intro ops
  induction ops with
  | nil => intro g g' done h; simp [runFromX] at h; obtain ⟨rfl, rfl⟩ := h; exact ⟨.slnil, rfl⟩
  | cons o os ih =>
    intro g g' done h
    simp only [runFromX] at h
    rw [Res.bind_eq_ok] at h
    obtain ⟨⟨b, g1⟩, h1, h⟩ := h
    rw [Res.bind_eq_ok] at h
    obtain ⟨⟨l, g2⟩, h2, h⟩ := h
    simp only [Res.ok.injEq, Prod.mk.injEq] at h
    obtain ⟨i1, i2⟩ := ih h2
    obtain ⟨rfl, rfl⟩ := h
    cases b with
    | true =>
      cases o with
      | add e =>
        obtain ⟨rfl, _⟩ := addEdgeX_threw hF h1
        exact ⟨.cons _ i1, i2⟩
      | del e =>
        simp only [stepX] at h1
        rw [Res.bind_eq_ok] at h1
        obtain ⟨_, _, h1⟩ := h1
        simp at h1
    | false =>
      refine ⟨.cons_cons _ i1, ?_⟩
      simp only [Bool.false_eq_true, if_false, runFrom]
      have : g.step S o = .ok g1 := by
        cases o with
        | add e =>
          show g.addEdge S e = _
          rw [addEdgeX_spec]
          have h1' : g.addEdgeX S e = .ok (false, g1) := h1
          rw [h1']; rfl
        | del e =>
          simp only [stepX] at h1
          rw [Res.bind_eq_ok] at h1
          obtain ⟨g3, h3, h1⟩ := h1
          simp at h1
          rw [← h1]; exact h3
      rw [this]; exact i2

end DK

open DK

/-- C82 for `DKtree`: a program that catches the exceptions ends with exactly the object it would have if the calls that
threw had never been made.  (So every theorem on histories that return applies to it, with `done` as the history.) -/
theorem C82_dktree (hF : K.ForcedPure) (S : Sizing) {n : Nat} {ops done : List Op} {g : DK K}
    (h : runX K S n ops = .ok (done, g)) : done.Sublist ops ∧ run K S n done = .ok g := by
  unfold runX at h
  rw [Res.bind_eq_ok] at h
  obtain ⟨g0, h0, h⟩ := h
  obtain ⟨a, b⟩ := runFromX_spec hF S ops h
  exact ⟨a, by unfold run; rw [h0]; exact b⟩

/-- One call: if `add_edge` throws, the object is exactly as before the call. -/
theorem C82_call (hF : K.ForcedPure) (S : Sizing) {g g' : DK K} {e : Edge}
    (h : g.addEdgeX S e = .ok (true, g')) : g' = g := (addEdgeX_threw hF h).1

theorem addEdgeX_no (hK : K.Lawful) (hF : K.ForcedPure) (S : Sizing) {g : DK K} (hi : g.Inv) {e : Edge}
    (he : InRange g.nv e) : g.addEdgeX S e ≠ .throws := by
  unfold addEdgeX
  rw [containsForced_pure hF, hi.contains_eq hK he]
  simp only [Res.ok_bind]
  split
  · simp
  · split
    · rename_i hm hc
      rcases hi.addEdge_cases hK hF S he (by simpa using hm) with ⟨_, _, c', h, _⟩ | ⟨_, _, h⟩ | ⟨h, _⟩ | ⟨h, _⟩
      · intro hh
        have := addEdgeX_spec S g e
        unfold addEdgeX at this
        rw [containsForced_pure hF, hi.contains_eq hK he] at this
        simp only [Res.ok_bind] at this
        rw [if_neg hm, if_pos hc, hh, h] at this
        cases this
      · intro hh
        have := addEdgeX_spec S g e
        unfold addEdgeX at this
        rw [containsForced_pure hF, hi.contains_eq hK he] at this
        simp only [Res.ok_bind] at this
        rw [if_neg hm, if_pos hc, hh, h] at this
        cases this
      · exact absurd hc h
      · exact absurd hc h
    · split
      · simp
      · rw [hi.c0wf.converted_eq]
        simp only [Res.ok_bind]
        obtain ⟨c, hc, _⟩ := hi.c0wf.clean_ok
        rw [hc]; simp

/-- In a program that catches the exceptions of `add_edge` nothing else ever throws: in particular no call of `del_edge`
does. -/
theorem C82_no_escape (hK : K.Lawful) (hF : K.ForcedPure) {S : Sizing} (hT : S.Top)
    (hP : ∀ m, 2 ≤ m → 0 < S.maxsz m 0) {n : Nat} {ops : List Op} (ho : OpsInRange n ops) :
    runX K S n ops ≠ .throws := by
  unfold runX
  cases h0 : create K S n with
  | ok g0 =>
    simp only [Res.ok_bind]
    have key : ∀ (rest done : List Op) (g : DK K), OpsInRange n done → OpsInRange n rest →
        run K S n done = .ok g → runFromX S g rest ≠ .throws := by
      intro rest
      induction rest with
      | nil => intro done g _ _ _; simp [runFromX]
      | cons o os ih =>
        intro done g hd hr hg
        have hor : InRange n o.edge := hr o (by simp)
        obtain ⟨t, hnv, hn1⟩ := run_track hK hF S hd hg
        simp only [runFromX]
        cases hs : g.stepX S o with
        | ok r =>
          obtain ⟨b, g1⟩ := r
          simp only [Res.ok_bind]
          have hg1 : ∃ done', OpsInRange n done' ∧ run K S n done' = .ok g1 := by
            have := runFromX_spec hF S [o] (g := g) (g' := g1) (done := if b then [] else [o])
              (by simp only [runFromX, hs, Res.ok_bind])
            obtain ⟨hsub, h2⟩ := this
            refine ⟨done ++ (if b then [] else [o]), ?_, ?_⟩
            · intro o' ho'
              rcases List.mem_append.1 ho' with h' | h'
              · exact hd o' h'
              · have := hsub.subset h'
                simp at this; rw [this]; exact hor
            · rw [run_append, hg]; exact h2
          obtain ⟨done', hd', hg'⟩ := hg1
          have := ih done' g1 hd' (fun o' ho' => hr o' (List.mem_cons_of_mem _ ho')) hg'
          cases hh : runFromX S g1 os with
          | throws => exact absurd hh this
          | _ => simp
        | throws =>
          exfalso
          cases o with
          | add e => exact addEdgeX_no hK hF S t.inv (by rw [hnv]; exact hor) hs
          | del e =>
            have he : InRange n e := hor
            simp only [stepX] at hs
            have hd2 : g.delEdge S e = .ub ∨ ∃ g', g.delEdge S e = .ok g' := by
              have hce := t.inv.contains_eq hK (e := e) (by rw [hnv]; exact he)
              by_cases hm : e ∈ g.edgesOf
              · have hpos : 0 < g.numberEdges := by
                  have := List.length_pos_of_mem hm
                  have := t.cnt; unfold numberEdges; omega
                have := C45_exact_partial hK hF hT hP hd he hg (N := g.numberEdges - 1)
                  (Or.inl ⟨by rw [hce]; simp [hm], by omega⟩)
                simp only at this
                obtain ⟨a, b⟩ := this
                by_cases hF' : g.rebuilds S e = true ∧ g.c0.size = 0 ∧
                    ((g.contains (1, 1) = .ok true ∧ e ≠ (1, 1)) ∨
                      max g.c0.maxEdges (S.maxsz (max n (g.numberEdges - 1)) 0) ≤ g.c0.nElements)
                · exact Or.inl (a.2 hF')
                · exact Or.inr (b.2 hF')
              · have := C45_exact_partial hK hF hT hP hd he hg (N := g.numberEdges)
                  (Or.inr ⟨by rw [hce]; simp [hm], rfl⟩)
                simp only at this
                obtain ⟨a, b⟩ := this
                by_cases hF' : g.rebuilds S e = true ∧ g.c0.size = 0 ∧
                    ((g.contains (1, 1) = .ok true ∧ e ≠ (1, 1)) ∨
                      max g.c0.maxEdges (S.maxsz (max n g.numberEdges) 0) ≤ g.c0.nElements)
                · exact Or.inl (a.2 hF')
                · exact Or.inr (b.2 hF')
            rcases hd2 with h' | ⟨g', h'⟩
            · rw [h'] at hs; cases hs
            · rw [h'] at hs; cases hs
        | _ => simp
    refine key ops [] g0 (by intro o h; simp at h) ho ?_
    unfold run; rw [h0]; rfl
  | throws => unfold create at h0; split at h0 <;> cases h0
  | _ => simp

/-! ## `DKtree_delay` -/

namespace DKD

/-- `add_edge(x,y)` of `DKtree_delay` (DKtree_delay.hpp:125-182) with the object it leaves behind when it throws (line
149): the step of the pending merge at lines 126-127 has been made, nothing else. -/
def addEdgeX (nd : Bool) (S : Sizing) (d : DKD K) (e : Edge) : Res (Bool × DKD K) := do
  let d ← d.pre
  let b ← d.contains e
  if b then .ok (false, d)
  else if d.g.c0.size < S.maxsz (max d.g.nv d.g.nTotal) 0 then do
    let c ← d.g.c0.insert S e d.g.nTotal
    .ok (false, { d with g := { d.g with c0 := c, nTotal := d.g.nTotal + 1 } })
  else if d.workDone then
    match DK.selectLevel K S (max d.g.nv d.g.nTotal) d.g.ks 0 (S.maxsz (max d.g.nv d.g.nTotal) 0) with
    | none => .ok (true, d)
    | some _ => do
      let d' ← d.flush S e
      .ok (false, d')
  else if nd then .ok (false, { d with g := { d.g with nTotal := d.g.nTotal + 1 } })
  else .abort

/-- One call whose exception, if any, is caught; `del_edge` (DKtree_delay.hpp:203-260) throws nothing. -/
def stepX (nd : Bool) (S : Sizing) (d : DKD K) : Op → Res (Bool × DKD K)
  | .add e => d.addEdgeX nd S e
  | .del e => do
    let d' ← d.delEdge S e
    .ok (false, d')

/-- A history whose exceptions are caught: the calls that returned, in order, and the final object. -/
def runFromX (nd : Bool) (S : Sizing) : DKD K → List Op → Res (List Op × DKD K)
  | d, [] => .ok ([], d)
  | d, o :: os => do
    let r ← d.stepX nd S o
    let l ← runFromX nd S r.2 os
    .ok (if r.1 then l.1 else o :: l.1, l.2)

/-- The same on a graph built by `DKtree_delay(n)`. -/
def runX (nd : Bool) (K : K2Impl) (S : Sizing) (n : Nat) (ops : List Op) : Res (List Op × DKD K) := do
  let d ← create K S n
  runFromX nd S d ops

/-- `addEdgeX` is `add_edge`. -/
theorem addEdgeX_spec (nd : Bool) (S : Sizing) (d : DKD K) (e : Edge) :
    d.addEdge nd S e = (d.addEdgeX nd S e >>= fun r => if r.1 then .throws else .ok r.2) := by
  unfold addEdge addEdgeX
  cases d.pre with
  | ok d =>
    simp only [Res.ok_bind]
    cases d.contains e with
    | ok b =>
      simp only [Res.ok_bind]
      split
      · rfl
      · split
        · cases d.g.c0.insert S e d.g.nTotal <;> rfl
        · split
          · cases hq : DK.selectLevel K S (max d.g.nv d.g.nTotal) d.g.ks 0
              (S.maxsz (max d.g.nv d.g.nTotal) 0) with
            | none => unfold flush; rw [hq]; rfl
            | some i => cases d.flush S e <;> rfl
          · split <;> rfl
    | _ => rfl
  | _ => rfl

theorem addEdgeX_threw {nd : Bool} {S : Sizing} {d d' : DKD K} {e : Edge}
    (h : d.addEdgeX nd S e = .ok (true, d')) : d.pre = .ok d' := by
  unfold addEdgeX at h
  rw [Res.bind_eq_ok] at h
  obtain ⟨d1, h1, h⟩ := h
  rw [Res.bind_eq_ok] at h
  obtain ⟨b, h2, h⟩ := h
  split at h
  · simp at h
  · split at h
    · rw [Res.bind_eq_ok] at h; obtain ⟨c, _, h⟩ := h; simp at h
    · split at h
      · split at h
        · simp at h; rw [h1, h]
        · rw [Res.bind_eq_ok] at h; obtain ⟨c, _, h⟩ := h; simp at h
      · split at h <;> simp at h

theorem DTrack.pre (hK : K.Lawful) {d d' : DKD K} {G : Edge → Prop} (h : DTrack d G) (hr : d.pre = .ok d') :
    DTrack d' G ∧ d'.g.nv = d.g.nv := by
  obtain ⟨a1, a2, a3, _, a5, _⟩ := h.inv.pre hK hr
  refine ⟨⟨a1, fun e => by rw [a2, h.mem], ?_⟩, a3⟩
  rw [a5, h.cnt]
  exact length_eq_of_mem_iff h.inv.inv.nodup a1.inv.nodup (fun e => (a2 e).symm)

theorem runFromX_track (hK : K.Lawful) (S : Sizing) {n : Nat} : ∀ (ops : List Op) {d d' : DKD K} {done : List Op}
    {G : Edge → Prop}, DTrack d G → d.g.nv = n → OpsInRange n ops → runFromX false S d ops = .ok (done, d') →
      done.Sublist ops ∧ DTrack d' (specRun G done) ∧ d'.g.nv = n := by
  intro ops
  induction ops with
  | nil =>
    intro d d' done G t hn _ h
    simp [runFromX] at h; obtain ⟨rfl, rfl⟩ := h; exact ⟨.slnil, t, hn⟩
  | cons o os ih =>
    intro d d' done G t hn ho h
    simp only [runFromX] at h
    rw [Res.bind_eq_ok] at h
    obtain ⟨⟨b, d1⟩, h1, h⟩ := h
    rw [Res.bind_eq_ok] at h
    obtain ⟨⟨l, d2⟩, h2, h⟩ := h
    simp only [Res.ok.injEq, Prod.mk.injEq] at h
    have ho' : OpsInRange n os := fun o' h' => ho o' (List.mem_cons_of_mem _ h')
    have hor : InRange d.g.nv o.edge := by rw [hn]; exact ho o (by simp)
    cases b with
    | true =>
      simp only [if_true] at h
      obtain ⟨rfl, rfl⟩ := h
      cases o with
      | add e =>
        obtain ⟨t1, n1⟩ := t.pre hK (addEdgeX_threw h1)
        obtain ⟨i1, i2, i3⟩ := ih t1 (by rw [n1, hn]) ho' h2
        exact ⟨.cons _ i1, i2, i3⟩
      | del e =>
        simp only [stepX] at h1
        rw [Res.bind_eq_ok] at h1
        obtain ⟨_, _, h1⟩ := h1
        simp at h1
    | false =>
      simp only [Bool.false_eq_true, if_false] at h
      obtain ⟨rfl, rfl⟩ := h
      have hs : d.step false S o = .ok d1 := by
        cases o with
        | add e =>
          show d.addEdge false S e = _
          rw [addEdgeX_spec]
          have h1' : d.addEdgeX false S e = .ok (false, d1) := h1
          rw [h1']; rfl
        | del e =>
          simp only [stepX] at h1
          rw [Res.bind_eq_ok] at h1
          obtain ⟨g3, h3, h1⟩ := h1
          simp at h1
          rw [← h1]; exact h3
      obtain ⟨t1, n1⟩ := t.step hK S hor hs
      obtain ⟨i1, i2, i3⟩ := ih t1 (by rw [n1, hn]) ho' h2
      exact ⟨.cons_cons _ i1, i2, i3⟩

end DKD

/-- C82 for `DKtree_delay` (assertions enabled): in a program that catches the exceptions, whatever part of a merge is
pending, the calls that returned (`done`) determine the graph: `contains` answers exactly the edges they leave, the edge
count is their number. -/
theorem C82_delay (hK : K.Lawful) (S : Sizing) {n : Nat} {ops done : List Op} {d : DKD K} (ho : OpsInRange n ops)
    (h : DKD.runX false K S n ops = .ok (done, d)) :
    done.Sublist ops ∧
    (∀ e, InRange n e → ∃ b, d.contains e = .ok b ∧ (b = true ↔ specMem done e)) ∧
    ∃ l : List Edge, l.Nodup ∧ (∀ e, e ∈ l ↔ specMem done e) ∧ d.numberEdges = l.length := by
  unfold DKD.runX at h
  rw [Res.bind_eq_ok] at h
  obtain ⟨d0, h0, h⟩ := h
  have hr0 : DKD.run false K S n [] = .ok d0 := by unfold DKD.run; rw [h0]; rfl
  obtain ⟨t, hn⟩ := DKD.run_track hK S (by intro o h; simp at h) hr0
  obtain ⟨a, b, c⟩ := DKD.runFromX_track hK S ops t hn ho h
  have hm : ∀ e, e ∈ d.g.edgesOf ↔ specMem done e := fun e => by rw [b.mem, specMem_iff_specRun]; rfl
  refine ⟨a, ?_, d.g.edgesOf, b.inv.inv.nodup, hm, b.cnt⟩
  intro e he
  refine ⟨_, b.inv.inv.contains_eq hK (by rw [c]; exact he), ?_⟩
  rw [decide_eq_true_eq, hm]

/-! ## Instances -/

/-- The history of `C13_refuted`, followed by two more calls: the exception of its last call is caught, and the later
calls return. -/
def wCatch : List Op := wThrow ++ [.del (1, 0), .add (0, 1)]

/-- Instance of `C82_dktree`: exactly one call threw, and the graph after the later calls is the one of `done`. -/
example : ∃ g : DK refK2, runX refK2 realSizing 3 wCatch = .ok (wThrow.dropLast ++ [.del (1, 0), .add (0, 1)], g) ∧
    g.contains (0, 1) = .ok true ∧ g.contains (1, 0) = .ok false ∧ g.contains (2, 2) = .ok true := by
  have hc : DK.check (runX refK2 hybSizing 3 wCatch) (fun r =>
      decide (r.1 = wThrow.dropLast ++ [.del (1, 0), .add (0, 1)]) && decide (r.2.contains (0, 1) = .ok true) &&
      decide (r.2.contains (1, 0) = .ok false) && decide (r.2.contains (2, 2) = .ok true)) = true := by decide +kernel
  obtain ⟨r, hr, hc⟩ := DK.check_iff.1 hc
  rw [← realSizing_eq_hyb] at hr
  simp only [Bool.and_eq_true, decide_eq_true_eq] at hc
  obtain ⟨⟨⟨h1, h2⟩, h3⟩, h4⟩ := hc
  refine ⟨r.2, ?_, h2, h3, h4⟩
  rw [hr, ← h1]

/-- Instance of `C82_delay`, with the same calls. -/
example : ∃ r : List Op × DKD refK2, DKD.runX false refK2 realSizing 3 wCatch = .ok r ∧
    r.1.length + 1 = wCatch.length ∧ r.2.contains (2, 2) = .ok true := by
  have hc : DK.check (DKD.runX false refK2 hybSizing 3 wCatch) (fun r =>
      decide (r.1.length + 1 = wCatch.length) && decide (r.2.contains (2, 2) = .ok true)) = true := by decide +kernel
  obtain ⟨r, hr, hc⟩ := DK.check_iff.1 hc
  rw [← realSizing_eq_hyb] at hr
  simp only [Bool.and_eq_true, decide_eq_true_eq] at hc
  exact ⟨r, hr, hc.1, hc.2⟩

end DK2
