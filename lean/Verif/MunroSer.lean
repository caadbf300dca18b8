import Verif.PropsMunroIter
import Verif.PropsSer
import Verif.Alias
/-!
# Serialization, loading and comparison of `DKtree_delay_munro`

`serialize`, `load` and `operator==` (DKtree_delay_.hpp:240-314) use `max_r`, the counters, `C0` and `k_collection` as those of
`DKtree` do (DKtree.hpp:330-418); `union_support`, `tmp_edge` and `k_collection_copy` are neither written nor changed by loading.
-/

namespace DK2

/-! ## Buffers with the same contents -/

/-- Two buffers without erased slot, with the same edges in the same order. -/
structure CEq (c c' : C0) : Prop where
  wf : c.WF
  wf' : c'.WF
  live : c.live = c'.live
  m : c.marked = 0
  m' : c'.marked = 0
  nv : c.nVertices = c'.nVertices
  mx : c.maxEdges = c'.maxEdges

namespace CEq
variable {c c' : C0}

theorem nEl (h : CEq c c') : c.nElements = c'.nElements := by
  have a1 := h.wf.marked_eq; have a2 := h.wf.live_length; have a3 := h.wf'.marked_eq; have a4 := h.wf'.live_length
  have a5 := h.m; have a6 := h.m'; have a7 := congrArg List.length h.live
  omega

theorem refl (hw : c.WF) (hm : c.marked = 0) : CEq c c := ⟨hw, hw, rfl, hm, hm, rfl, rfl⟩

theorem contains (h : CEq c c') (e : Edge) : c.contains e = c'.contains e := by
  rw [h.wf.contains_eq, h.wf'.contains_eq, h.live]

theorem size (h : CEq c c') : c.size = c'.size := by
  rw [h.wf.size_eq, h.wf'.size_eq, h.live]

theorem neigh (h : CEq c c') (x : Nat) : c.listNeighbours x = c'.listNeighbours x := by
  rw [h.wf.listNeighbours_eq, h.wf'.listNeighbours_eq, h.live]

theorem converted (h : CEq c c') : c.converted = c'.converted := by
  rw [h.wf.converted_eq, h.wf'.converted_eq, h.live]

theorem clean (h : CEq c c') : Res.Rel CEq c.clean c'.clean := by
  obtain ⟨d, a1, a2, a3, _, a5, a6, a7⟩ := h.wf.clean_ok
  obtain ⟨d', b1, b2, b3, _, b5, b6, b7⟩ := h.wf'.clean_ok
  rw [a1, b1]
  exact .ok ⟨a2, b2, by rw [a3, b3], a5, b5, by rw [a7, b7, h.nv], by rw [a6, b6, h.mx]⟩

theorem resize (h : CEq c c') (m : Nat) : CEq (c.resize m) (c'.resize m) := by
  obtain ⟨a1, a2, _, a4, a5, a6, _⟩ := h.wf.resize_spec m
  obtain ⟨b1, b2, _, b4, b5, b6, _⟩ := h.wf'.resize_spec m
  exact ⟨a1, b1, by rw [a2, b2, h.live], by rw [a4, h.m], by rw [b4, h.m'], by rw [a6, b6, h.nv], by rw [a5, b5, h.mx]⟩

theorem insertSlot (h : CEq c c') {e : Edge} (he : e ∉ c.live) : Res.Rel CEq (c.insertSlot e) (c'.insertSlot e) := by
  have he1 := h.wf.not_mem_live.1 he
  have he2 := h.wf'.not_mem_live.1 (h.live ▸ he)
  by_cases hn : c.nElements < c.maxEdges
  · obtain ⟨d, a1, a2, a3, _, a5, a6, a7⟩ := h.wf.insertSlot_ok he1 hn
    obtain ⟨d', b1, b2, b3, _, b5, b6, b7⟩ := h.wf'.insertSlot_ok he2 (by rw [← h.nEl, ← h.mx]; exact hn)
    rw [a1, b1]
    exact .ok ⟨a2, b2, by rw [a3, b3, h.live], by rw [a5, h.m], by rw [b5, h.m'], by rw [a7, b7, h.nv], by rw [a6, b6, h.mx]⟩
  · rw [h.wf.insertSlot_ub hn, h.wf'.insertSlot_ub (by rw [← h.nEl, ← h.mx]; exact hn)]
    exact .ub

theorem insert (h : CEq c c') (S : Sizing) (e : Edge) (m : Nat) : Res.Rel CEq (c.insert S e m) (c'.insert S e m) := by
  by_cases he : e ∈ c.live
  · rw [C0.insert_present h.wf he, C0.insert_present h.wf' (h.live ▸ he)]
    exact .ok h
  · have he1 := h.wf.not_mem_live.1 he
    have he2 := h.wf'.not_mem_live.1 (h.live ▸ he)
    unfold C0.insert
    rw [he1, he2, h.wf.len_el, h.wf'.len_el, ← h.nEl, ← h.mx, ← h.nv]
    simp only [Option.isSome_none, Bool.false_eq_true, if_false]
    by_cases hn : c.nElements ≥ c.maxEdges
    · rw [if_pos hn, if_pos hn]
      exact (h.resize _).insertSlot (by rw [(h.wf.resize_spec _).2.1]; exact he)
    · rw [if_neg hn, if_neg hn]
      exact h.insertSlot he

end CEq

open DK Bits GraphI

namespace DKM

/-! ## Model -/

/-- `serialize(out, dir)` (DKtree_delay_.hpp:251-270): the levels `≤ max_r`, then the header.  As `DK.serialize`. -/
def serialize (P : MPar) (d : DKM) (dir : Dir (bitK2 P.k P.H)) : Res (Dir (bitK2 P.k P.H)) := (d.view P).serialize dir

/-- `DKtree_delay_munro()` (DKtree_delay_.hpp:67), an object to load into; as `DK.blank`. -/
def blank : DKM := ⟨0, 0, 0, C0.blank 0 0, List.replicate RS none, List.replicate RS none, (0, 0), idleUS⟩

/-- `load(in, dir)` (DKtree_delay_.hpp:272-298) into the object `x`: as `DK.load`; `union_support`, `tmp_edge` and
`k_collection_copy` keep their values. -/
def load (P : MPar) (x : DKM) (dir : Dir (bitK2 P.k P.H)) : Res DKM := do
  let g ← (x.view P).load P.S dir
  .ok ⟨g.maxR, g.nv, g.nTotal, g.c0, g.ks.map (Option.map MT.bt), x.copy, x.tmpEdge, x.us⟩

/-- `operator==` (DKtree_delay_.hpp:300-316): as `DK.eq`. -/
noncomputable def eq (P : MPar) (E : K2Eq (bitK2 P.k P.H)) (a b : DKM) : Res Bool := (a.view P).eq E (b.view P)

/-! ## Graphs that differ only in the remains of finished merges -/

/-- The same counters, levels and buffered edges, and the same pending merge (if any). -/
structure Sim (d d' : DKM) : Prop where
  maxR : d.maxR = d'.maxR
  nv : d.nv = d'.nv
  nT : d.nTotal = d'.nTotal
  ks : d.ks = d'.ks
  c0 : CEq d.c0 d'.c0
  us : (d.us.finish = true ∧ d'.us.finish = true) ∨ (d.us = d'.us ∧ d.copy = d'.copy ∧ d.tmpEdge = d'.tmpEdge)

variable {P : MPar} {d d' : DKM}

theorem Sim.fin (h : Sim d d') : d.us.finish = d'.us.finish := by
  rcases h.us with ⟨h1, h2⟩ | ⟨h1, _⟩
  · rw [h1, h2]
  · rw [h1]

theorem Sim.contains (h : Sim d d') (e : Edge) : d.contains P e = d'.contains P e := by
  unfold DKM.contains
  rw [h.c0.contains, ← h.fin, h.ks]
  cases hf : d.us.finish with
  | true => simp only [if_true]
  | false =>
    rcases h.us with ⟨h1, _⟩ | ⟨_, h2, h3⟩
    · rw [hf] at h1; cases h1
    · rw [h2, h3]

theorem Sim.unionStep (h : Sim d d') : Res.Rel Sim (d.unionStep P) (d'.unionStep P) := by
  unfold DKM.unionStep
  rcases h.us with ⟨h1, h2⟩ | ⟨h1, h2, h3⟩
  · rw [show US.unionOp (P.k * P.k) P.H (d.ks.length + 1) d.ks d.us = .ok (d.ks, d.us) by
        rw [US.unionOp, if_pos h1],
      show US.unionOp (P.k * P.k) P.H (d'.ks.length + 1) d'.ks d'.us = .ok (d'.ks, d'.us) by
        rw [US.unionOp, if_pos h2]]
    exact .ok ⟨h.maxR, h.nv, h.nT, h.ks, h.c0, h.us⟩
  · rw [h1, h.ks]
    refine (Res.Rel.refl (R := Eq) (fun _ => rfl) _).bind ?_
    rintro r _ rfl
    exact .ok ⟨h.maxR, h.nv, h.nT, rfl, h.c0, Or.inr ⟨rfl, h2, h3⟩⟩

theorem Sim.flush (h : Sim d d') (e : Edge) : Res.Rel Sim (d.flush P e) (d'.flush P e) := by
  unfold DKM.flush
  rw [h.nv, h.nT, h.ks, h.c0.converted]
  cases selectLevel P.S (max d'.nv d'.nTotal) d'.ks 0 (P.S.maxsz (max d'.nv d'.nTotal) 0) with
  | none => exact .throws
  | some i =>
    refine (Res.Rel.refl (R := Eq) (fun _ => rfl) _).bind ?_
    rintro conv _ rfl
    refine h.c0.clean.bind ?_
    intro c c' hc
    refine (Res.Rel.refl (R := Eq) (fun _ => rfl) _).bind ?_
    rintro r _ rfl
    have hs : Sim ⟨max i d.maxR, d'.nv, d'.nTotal, c, r.1, d'.ks, e, r.2⟩ ⟨max i d'.maxR, d'.nv, d'.nTotal, c', r.1, d'.ks, e, r.2⟩ :=
      ⟨by rw [h.maxR], rfl, rfl, rfl, hc, Or.inr ⟨rfl, rfl, rfl⟩⟩
    refine hs.unionStep.bind ?_
    intro a b hab
    exact .ok ⟨hab.maxR, hab.nv, congrArg (· + 1) hab.nT, hab.ks, hab.c0, hab.us⟩

theorem Sim.addEdge (h : Sim d d') (e : Edge) : Res.Rel Sim (d.addEdge P e) (d'.addEdge P e) := by
  unfold DKM.addEdge
  refine h.unionStep.bind ?_
  intro a b hab
  rw [hab.contains]
  refine (Res.Rel.refl (R := Eq) (fun _ => rfl) _).bind ?_
  rintro x _ rfl
  cases x with
  | true => exact .ok hab
  | false =>
    rw [if_neg Bool.false_ne_true, if_neg Bool.false_ne_true, hab.c0.size, hab.nv, hab.nT, hab.fin]
    by_cases hs : b.c0.size < P.S.maxsz (max b.nv b.nTotal) 0
    · rw [if_pos hs, if_pos hs]
      refine (hab.c0.insert _ _ _).bind ?_
      intro c c' hc
      exact .ok ⟨hab.maxR, rfl, rfl, hab.ks, hc, hab.us⟩
    · rw [if_neg hs, if_neg hs]
      by_cases hf : (b.us.finish || P.nd) = true
      · rw [if_pos hf, if_pos hf]; exact hab.flush e
      · rw [if_neg hf, if_neg hf]; exact .abort

/-- The same calls on both have the same outcome. -/
theorem Sim.runFrom (ops : List Op) : ∀ {d d' : DKM}, Sim d d' → Res.Rel Sim (runFrom P d ops) (runFrom P d' ops) := by
  induction ops with
  | nil => intro d d' h; exact .ok h
  | cons o os ih =>
    intro d d' h
    cases o with
    | add e => exact (h.addEdge e).bind fun _ _ hab => ih hab
    | del e => exact ih h

theorem Sim.inv {n : Nat} {es : List (Option (List Edge))} {p : Option Pd} (h : Sim d d') (hi : MInv P n d es p) :
    MInv P n d' es p where
  wf := h.c0.wf'
  c0nv := by rw [← h.c0.nv, hi.c0nv]
  c0m := h.c0.m'
  rng := by rw [← h.c0.live]; exact hi.rng
  nv := by rw [← h.nv, hi.nv]
  lv := hi.lv
  cnt := by rw [← h.c0.live, ← h.nT]; exact hi.cnt
  st := by
    cases p with
    | none => exact ⟨by rw [← h.fin]; exact hi.st.1, by rw [← h.ks]; exact hi.st.2⟩
    | some q =>
      have hf : d.us.finish ≠ true := by
        intro hf; have := hi.finish_iff.1 hf; cases this
      rcases h.us with ⟨h1, _⟩ | ⟨h1, h2, h3⟩
      · exact absurd h1 hf
      · obtain ⟨a1, a2, a3, a4, a5, a6, a7, a8⟩ := hi.st
        exact ⟨a1, by rw [← h.ks, ← h1]; exact a2, by rw [← h1]; exact a3, a4, by rw [← h1]; exact a5, by rw [← h2]; exact a6,
          by rw [← h3]; exact a7, by rw [← h1, ← h.c0.live]; exact a8⟩
  top := by rw [← h.maxR]; exact hi.top

theorem Sim.edgesOf (h : Sim d d') : (d.view P).edgesOf = (d'.view P).edgesOf := by
  unfold DK.edgesOf view
  simp only [h.c0.live, h.ks]

/-! ## Save and load -/

theorem blank_view : (blank.view P) = DK.blank (bitK2 P.k P.H) := rfl

/-- Saving and loading restores `max_r`, the counters, the buffered edges and the levels, of any reachable state. -/
theorem saved {n : Nat} {es : List (Option (List Edge))} {p : Option Pd} (hT : MT.Tall P.k P.H) (hi : MInv P n d es p)
    (E : K2Eq (bitK2 P.k P.H)) :
    ∃ dir d', d.serialize P (Dir.empty _) = .ok dir ∧ load P blank dir = .ok d' ∧ d.maxR = d'.maxR ∧ d.nv = d'.nv ∧
      d.nTotal = d'.nTotal ∧ d.ks = d'.ks ∧ CEq d.c0 d'.c0 ∧ d'.us = idleUS ∧ d'.tmpEdge = (0, 0) ∧
      d.eq P E d' = .ok true ∧ d'.eq P E d = .ok true := by
  have hw := hi.view_winv hT
  have hm : (d.view P).c0.marked = 0 := hi.c0m
  have hlen : (DK.blank (bitK2 P.k P.H)).ks.length = RS := by show (List.replicate RS none).length = RS; simp
  have hmr := hw.maxR_lt
  obtain ⟨dir, g, a1, a2, a3, a4, a5, a6, a7, _, _, a10, a11⟩ := load_serialized (K := bitK2 P.k P.H) P.S hw hm
    (d := Dir.empty _) (x := DK.blank _) hlen (fun _ _ _ => rfl) (by
      intro l hl _
      show (List.replicate RS none)[l]? = _
      rw [List.getElem?_replicate, if_pos (by omega)]) E
  obtain ⟨c, b1, b2, b3, b4, b5, b6⟩ := load_ok (K := bitK2 P.k P.H) (S := P.S) hw (d := dir) (x := DK.blank _) hlen hm (by
    have := serialize_ok hw (Dir.empty _) hm
    rw [a1] at this; cases this; rfl)
  have hg : g.c0 = c := by rw [b1] at a2; cases a2; rfl
  have hgl : g.ks.length = RS := by
    rw [b1] at a2; cases a2
    show (readLevels _ _ _).length = RS
    unfold readLevels
    rw [List.length_mapIdx, hlen]
  have hks : g.ks = (d.view P).ks := by
    apply List.ext_getElem?
    intro i
    by_cases hil : i < (d.view P).maxR + 1
    · have := congrArg (·[i]?) a3
      simpa only [List.getElem?_take_of_lt hil] using this
    · have h1 := congrArg (·[i - ((d.view P).maxR + 1)]?) a4
      simp only [List.getElem?_drop] at h1
      rw [show (d.view P).maxR + 1 + (i - ((d.view P).maxR + 1)) = i by omega] at h1
      rw [h1]
      show (List.replicate RS none)[i]? = _
      by_cases hi8 : i < RS
      · rw [List.getElem?_replicate, if_pos hi8]
        have hlt : i < (d.view P).ks.length := by rw [hw.len]; exact hi8
        rw [List.getElem?_eq_getElem hlt]
        cases ho : (d.view P).ks[i] with
        | none => rfl
        | some t =>
          have := hi.view_above i t (by rw [List.getElem?_eq_getElem hlt, ho])
          omega
      · rw [List.getElem?_eq_none (by simp; omega), List.getElem?_eq_none (by rw [hw.len]; omega)]
  have hback : (d.view P).ks.map (Option.map MT.bt) = d.ks := by
    unfold view
    simp only [List.map_map]
    conv_rhs => rw [← List.map_id d.ks]
    apply List.map_congr_left
    intro o _
    cases o <;> rfl
  refine ⟨dir, ⟨g.maxR, g.nv, g.nTotal, g.c0, g.ks.map (Option.map MT.bt), blank.copy, blank.tmpEdge, blank.us⟩, a1, ?_, a5.symm,
    a7.symm, a6.symm, ?_, ?_, rfl, rfl, ?_, ?_⟩
  · unfold load
    rw [blank_view, a2]
    rfl
  · show d.ks = g.ks.map _
    rw [hks, hback]
  · show CEq d.c0 g.c0
    rw [hg]
    exact ⟨hi.wf, b2, b3.symm, hi.c0m, b4, b6.symm, b5.symm⟩
  all_goals
    have hv : view P ⟨g.maxR, g.nv, g.nTotal, g.c0, g.ks.map (Option.map MT.bt), blank.copy, blank.tmpEdge, blank.us⟩ = g := by
      unfold view
      have : (g.ks.map (Option.map MT.bt)).map (Option.map (fun t => (⟨t, 0⟩ : MT))) = g.ks := by
        rw [hks, hback]; rfl
      simp only [this]
    unfold DKM.eq
    rw [hv]
  · exact a10
  · exact a11

end DKM
end DK2
