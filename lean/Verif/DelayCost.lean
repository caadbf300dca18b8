import Verif.PropsDelay
import Verif.Cost
/-!
# C76: the work of one `add_edge` of `DKtree_delay`

`add_edge` with two counters: the calls of `unionOp`, and the edges written into trees (by the construction of `tmp`
and by `unionOp`).
-/

namespace DK2
namespace DKD
variable {K : K2Impl}

/-- As `unionLoop` (DKtree_delay.hpp:97-118), also giving the number of `unionOp` calls and the sizes of their
results. -/
def unionLoopC : Nat → DKD K → Res (DKD K × Nat × Nat)
  | 0, d => do
    let d' ← d.unionMove
    .ok (d', 0, 0)
  | f + 1, d => do
    let o ← rd d.g.ks d.ui
    match o with
    | none => unionLoopC f { d with ui := d.ui + 1 }
    | some t =>
      if d.uprev < RS then do
        let p ← rd d.g.ks d.uprev
        let u ← use p
        let ks ← wr d.g.ks d.ui (some (K.union t u))
        let ks ← wr ks d.uprev none
        .ok ({ d with g := { d.g with ks := ks }, uprev := d.ui, ui := d.ui + 1 }, 1, (K.edges (K.union t u)).length)
      else do
        let u ← use d.tmp
        let ks ← wr d.g.ks d.ui (some (K.union t u))
        .ok ({ d with g := { d.g with ks := ks }, tmp := none, uprev := d.ui, ui := d.ui + 1 }, 1,
          (K.edges (K.union t u)).length)

/-- As `unionDelay` (DKtree_delay.hpp:96-119), counted. -/
def unionDelayC (d : DKD K) : Res (DKD K × Nat × Nat) := unionLoopC (d.ufinal + 1 - d.ui) d

/-- As `flush` (DKtree_delay.hpp:139-169, 181), counted; the construction of `tmp` (160) writes its edges. -/
def flushC (S : Sizing) (d : DKD K) (e : Edge) : Res (DKD K × Nat × Nat) :=
  match DK.selectLevel K S (max d.g.nv d.g.nTotal) d.g.ks 0 (S.maxsz (max d.g.nv d.g.nTotal) 0) with
  | none => .throws
  | some i => do
    let conv ← d.g.c0.converted
    let tmp := K.build (conv ++ [e]) d.g.nv
    let c ← d.g.c0.clean
    let r ← unionDelayC ⟨{ d.g with maxR := max i d.g.maxR, c0 := c }, 0, RS, i, some tmp⟩
    .ok ({ r.1 with g := { r.1.g with nTotal := r.1.g.nTotal + 1 } }, r.2.1, (K.edges tmp).length + r.2.2)

/-- As `pre` (DKtree_delay.hpp:126-127), counted. -/
def preC (d : DKD K) : Res (DKD K × Nat × Nat) := if d.workDone then .ok (d, 0, 0) else d.unionDelayC

/-- As `addEdge` (DKtree_delay.hpp:125-182), counted. -/
def addEdgeC (nd : Bool) (S : Sizing) (d : DKD K) (e : Edge) : Res (DKD K × Nat × Nat) := do
  let r ← d.preC
  let b ← r.1.contains e
  if b then .ok r
  else if r.1.g.c0.size < S.maxsz (max r.1.g.nv r.1.g.nTotal) 0 then do
    let c ← r.1.g.c0.insert S e r.1.g.nTotal
    .ok ({ r.1 with g := { r.1.g with c0 := c, nTotal := r.1.g.nTotal + 1 } }, r.2)
  else if r.1.workDone then do
    let q ← r.1.flushC S e
    .ok (q.1, r.2.1 + q.2.1, r.2.2 + q.2.2)
  else if nd then .ok ({ r.1 with g := { r.1.g with nTotal := r.1.g.nTotal + 1 } }, r.2)
  else .abort

/-! ## The counters change nothing -/

theorem unionLoopC_fst : ∀ (f : Nat) (d : DKD K), (unionLoopC f d >>= fun r => .ok r.1) = unionLoop f d
  | 0, d => by
    unfold unionLoopC unionLoop
    rw [DK.res_assoc]
    cases d.unionMove <;> rfl
  | f + 1, d => by
    unfold unionLoopC unionLoop
    rw [DK.res_assoc]
    congr 1
    funext o
    cases o with
    | none => exact unionLoopC_fst f _
    | some t =>
      simp only
      by_cases h : d.uprev < RS
      · rw [if_pos h, if_pos h, DK.res_assoc]
        congr 1; funext p
        rw [DK.res_assoc]
        congr 1; funext u
        rw [DK.res_assoc]
        congr 1; funext ks
        rw [DK.res_assoc]
        rfl
      · rw [if_neg h, if_neg h, DK.res_assoc]
        congr 1; funext u
        rw [DK.res_assoc]
        rfl

theorem flushC_fst (S : Sizing) (d : DKD K) (e : Edge) :
    (d.flushC S e >>= fun r => .ok r.1) = d.flush S e := by
  unfold flushC flush
  cases DK.selectLevel K S (max d.g.nv d.g.nTotal) d.g.ks 0 (S.maxsz (max d.g.nv d.g.nTotal) 0) with
  | none => rfl
  | some i =>
    simp only
    rw [DK.res_assoc]
    congr 1; funext conv
    rw [DK.res_assoc]
    congr 1; funext c
    unfold unionDelay unionDelayC
    rw [← unionLoopC_fst, DK.res_assoc, DK.res_assoc]
    rfl

theorem preC_fst (d : DKD K) : (d.preC >>= fun r => .ok r.1) = d.pre := by
  unfold preC pre
  by_cases h : d.workDone = true
  · rw [if_pos h, if_pos h]; rfl
  · rw [if_neg h, if_neg h]; exact unionLoopC_fst _ d

/-- Dropping the counters gives `addEdge`. -/
theorem addEdgeC_fst (nd : Bool) (S : Sizing) (d : DKD K) (e : Edge) :
    (d.addEdgeC nd S e >>= fun r => .ok r.1) = d.addEdge nd S e := by
  unfold addEdgeC addEdge
  rw [← preC_fst, DK.res_assoc, DK.res_assoc]
  congr 1; funext r
  rw [DK.res_assoc]
  simp only [Res.ok_bind]
  congr 1; funext b
  by_cases h1 : b = true
  · rw [if_pos h1, if_pos h1]; rfl
  · rw [if_neg h1, if_neg h1]
    by_cases h2 : r.1.g.c0.size < S.maxsz (max r.1.g.nv r.1.g.nTotal) 0
    · rw [if_pos h2, if_pos h2, DK.res_assoc]; rfl
    · rw [if_neg h2, if_neg h2]
      by_cases h3 : r.1.workDone = true
      · rw [if_pos h3, if_pos h3, DK.res_assoc, ← flushC_fst]
        rfl
      · rw [if_neg h3, if_neg h3]
        cases nd <;> rfl

/-! ## Bounds -/

theorem edges_le_flat {t : K.T} : ∀ {ks : List (Option K.T)}, some t ∈ ks →
    (K.edges t).length ≤ (DK.flat K ks).length
  | [], h => by cases h
  | o :: ks, h => by
    have e : DK.flat K (o :: ks) = DK.oedges K o ++ DK.flat K ks := by simp [DK.flat]
    rw [e, List.length_append]
    rcases List.mem_cons.1 h with h | h
    · subst h
      simp [DK.oedges]
    · have := edges_le_flat h
      omega

/-- One call of `union_delay` calls `unionOp` at most once, and writes no more edges than the levels hold after it. -/
theorem unionLoopC_le : ∀ (f : Nat) {d : DKD K} {r : DKD K × Nat × Nat}, (d.uprev < RS → d.uprev < d.ui) →
    unionLoopC f d = .ok r → r.2.1 ≤ 1 ∧ r.2.2 ≤ (DK.flat K r.1.g.ks).length
  | 0, d, r, _, h => by
    unfold unionLoopC at h
    obtain ⟨d', _, h⟩ := Res.bind_eq_ok.1 h
    cases h
    simp
  | f + 1, d, r, hp, h => by
    unfold unionLoopC at h
    obtain ⟨o, ho, h⟩ := Res.bind_eq_ok.1 h
    cases o with
    | none => exact unionLoopC_le f (d := { d with ui := d.ui + 1 }) (fun h => by have := hp h; simp only; omega) h
    | some t =>
      simp only at h
      by_cases hu : d.uprev < RS
      · rw [if_pos hu] at h
        obtain ⟨p, h1, h⟩ := Res.bind_eq_ok.1 h
        obtain ⟨u, h2, h⟩ := Res.bind_eq_ok.1 h
        obtain ⟨ks, h3, h⟩ := Res.bind_eq_ok.1 h
        obtain ⟨ks', h4, h⟩ := Res.bind_eq_ok.1 h
        cases h
        rw [wr_eq_ok] at h3 h4
        refine ⟨Nat.le_refl _, edges_le_flat ?_⟩
        show some (K.union t u) ∈ ks'
        rw [h4.2, h3.2]
        have := hp hu
        apply List.mem_of_getElem? (i := d.ui)
        rw [List.getElem?_set_ne (by omega), List.getElem?_set_self h3.1]
      · rw [if_neg hu] at h
        obtain ⟨u, h2, h⟩ := Res.bind_eq_ok.1 h
        obtain ⟨ks, h3, h⟩ := Res.bind_eq_ok.1 h
        cases h
        rw [wr_eq_ok] at h3
        refine ⟨Nat.le_refl _, edges_le_flat ?_⟩
        show some (K.union t u) ∈ ks
        rw [h3.2]
        exact List.mem_of_getElem? (List.getElem?_set_self h3.1)

/-- Without any hypothesis, one call of `union_delay` calls `unionOp` at most once. -/
theorem unionLoopC_one : ∀ (f : Nat) {d : DKD K} {r : DKD K × Nat × Nat}, unionLoopC f d = .ok r → r.2.1 ≤ 1
  | 0, d, r, h => by
    unfold unionLoopC at h
    obtain ⟨d', _, h⟩ := Res.bind_eq_ok.1 h
    cases h
    simp
  | f + 1, d, r, h => by
    unfold unionLoopC at h
    obtain ⟨o, ho, h⟩ := Res.bind_eq_ok.1 h
    cases o with
    | none => exact unionLoopC_one f h
    | some t =>
      simp only at h
      by_cases hu : d.uprev < RS
      · rw [if_pos hu] at h
        obtain ⟨p, h1, h⟩ := Res.bind_eq_ok.1 h
        obtain ⟨u, h2, h⟩ := Res.bind_eq_ok.1 h
        obtain ⟨ks, h3, h⟩ := Res.bind_eq_ok.1 h
        obtain ⟨ks', h4, h⟩ := Res.bind_eq_ok.1 h
        cases h
        exact Nat.le_refl _
      · rw [if_neg hu] at h
        obtain ⟨u, h2, h⟩ := Res.bind_eq_ok.1 h
        obtain ⟨ks, h3, h⟩ := Res.bind_eq_ok.1 h
        cases h
        exact Nat.le_refl _

theorem preC_one {d : DKD K} {r : DKD K × Nat × Nat} (h : d.preC = .ok r) :
    r.2.1 ≤ 1 ∧ (d.rem = 0 → r = (d, 0, 0)) := by
  unfold preC workDone at h
  by_cases hw : d.ufinal < d.ui
  · rw [if_pos (by simpa using hw)] at h
    cases h
    exact ⟨by simp, fun _ => rfl⟩
  · rw [if_neg (by simpa using hw)] at h
    refine ⟨unionLoopC_one _ h, fun h0 => ?_⟩
    unfold rem at h0
    omega

theorem flushC_one {S : Sizing} {d : DKD K} {e : Edge} {r : DKD K × Nat × Nat} (h : d.flushC S e = .ok r) :
    r.2.1 ≤ 1 := by
  unfold flushC at h
  split at h
  · cases h
  · obtain ⟨conv, h1, h⟩ := Res.bind_eq_ok.1 h
    obtain ⟨c, h2, h⟩ := Res.bind_eq_ok.1 h
    obtain ⟨q, h3, h⟩ := Res.bind_eq_ok.1 h
    cases h
    exact (unionLoopC_one _ h3 : q.2.1 ≤ 1)

/-- Any state, any thresholds: at most two `unionOp` calls. -/
theorem addEdgeC_two {nd : Bool} {S : Sizing} {d : DKD K} {e : Edge} {r : DKD K × Nat × Nat}
    (h : d.addEdgeC nd S e = .ok r) : r.2.1 ≤ 2 := by
  unfold addEdgeC at h
  obtain ⟨q, h1, h⟩ := Res.bind_eq_ok.1 h
  obtain ⟨b, h2, h⟩ := Res.bind_eq_ok.1 h
  have hq := (preC_one h1).1
  split at h
  · cases h; omega
  · split at h
    · obtain ⟨c, h3, h⟩ := Res.bind_eq_ok.1 h
      cases h; simp only; omega
    · split at h
      · obtain ⟨p, h3, h⟩ := Res.bind_eq_ok.1 h
        cases h
        have := flushC_one h3
        simp only; omega
      · split at h
        · cases h; simp only; omega
        · cases h

theorem preC_le {d : DKD K} (hp : d.uprev < RS → d.uprev < d.ui) {r : DKD K × Nat × Nat} (h : d.preC = .ok r) :
    r.2.2 ≤ (DK.flat K r.1.g.ks).length := by
  unfold preC at h
  split at h
  · cases h; simp
  · exact (unionLoopC_le _ hp h).2

theorem flushC_le {S : Sizing} {d : DKD K} (hw : d.g.c0.WF) {e : Edge} {r : DKD K × Nat × Nat}
    (h : d.flushC S e = .ok r) :
    r.2.2 ≤ (K.edges (K.build (d.g.c0.live ++ [e]) d.g.nv)).length + (DK.flat K r.1.g.ks).length := by
  unfold flushC at h
  split at h
  · cases h
  · rw [hw.converted_eq] at h
    simp only [Res.ok_bind] at h
    obtain ⟨c, h2, h⟩ := Res.bind_eq_ok.1 h
    obtain ⟨q, h3, h⟩ := Res.bind_eq_ok.1 h
    cases h
    have := (unionLoopC_le _ (by intro h; simp at h) h3).2
    simp only
    omega

/-- In a state of an insert-only history with `m` stored edges: the number of edges written; at most one `unionOp` call
if the buffer has room for 7 edges, and then fewer edges are written. -/
theorem DIns.addEdgeC (hK : K.Lawful) {S : Sizing} {d : DKD K} (hd : DIns d) {nd : Bool} {e : Edge}
    (he : InRange d.g.nv e) {r : DKD K × Nat × Nat} (h : d.addEdgeC nd S e = .ok r) :
    r.2.2 ≤ 3 * (d.g.edgesOf.length + 1) ∧
    (7 ≤ S.maxsz (max d.g.nv d.g.nTotal) 0 → r.2.1 ≤ 1 ∧ r.2.2 ≤ 2 * (d.g.edgesOf.length + 1)) := by
  unfold DKD.addEdgeC at h
  obtain ⟨q, h1, h⟩ := Res.bind_eq_ok.1 h
  obtain ⟨b, h2, h⟩ := Res.bind_eq_ok.1 h
  have hq := preC_one h1
  have hql := preC_le hd.inv.prev h1
  obtain ⟨d1, p0, p1, p2, p3, p4, p5, p6, p7⟩ := hd.pre hK
  have hd1 : d1 = q.1 := by
    have := preC_fst d
    rw [h1, p0] at this
    exact (Res.ok.inj this).symm
  subst hd1
  have hlen : q.1.g.edgesOf.length = d.g.edgesOf.length :=
    (length_eq_of_mem_iff hd.inv.inv.nodup p1.inv.inv.nodup (fun e => (p6 e).symm)).symm
  have hfl : (DK.flat K q.1.g.ks).length ≤ q.1.g.edgesOf.length := by unfold DK.edgesOf; simp
  have small : q.2.2 ≤ 3 * (d.g.edgesOf.length + 1) ∧
      (7 ≤ S.maxsz (max d.g.nv d.g.nTotal) 0 → q.2.1 ≤ 1 ∧ q.2.2 ≤ 2 * (d.g.edgesOf.length + 1)) :=
    ⟨by omega, fun _ => ⟨hq.1, by omega⟩⟩
  split at h
  · cases h; exact small
  · rename_i hb
    split at h
    · obtain ⟨c, h3, h⟩ := Res.bind_eq_ok.1 h
      cases h; exact small
    · rename_i hsz
      split at h
      · obtain ⟨p, h3, h⟩ := Res.bind_eq_ok.1 h
        cases h
        simp only
        have he1 : InRange q.1.g.nv e := by rw [p2]; exact he
        have hm : e ∉ q.1.g.edgesOf := by
          intro hm
          have := p1.inv.inv.contains_eq hK he1
          unfold DKD.contains at h2
          rw [h2] at this
          have := Res.ok.inj this
          simp [hm] at this
          exact hb this
        have hf := flushC_fst S q.1 e
        rw [h3] at hf
        have hf : q.1.flush S e = .ok p.1 := hf.symm
        obtain ⟨f1, f2, f3, f4⟩ := p1.inv.flush hK he1 hm hf
        have hl := length_insert p1.inv.inv.nodup f1.inv.nodup f3 hm
        have hfl' : (DK.flat K p.1.g.ks).length ≤ p.1.g.edgesOf.length := by unfold DK.edgesOf; simp
        obtain ⟨v1, v2, v3⟩ := build_live hK p1.inv.inv he1 hm
        have hbl : (K.edges (K.build (q.1.g.c0.live ++ [e]) q.1.g.nv)).length = q.1.g.c0.live.length + 1 := by
          have hnd : (q.1.g.c0.live ++ [e]).Nodup := by
            rw [List.nodup_append]
            refine ⟨p1.inv.inv.c0wf.live_nodup, by simp, ?_⟩
            intro a ha b hb
            rw [List.mem_singleton] at hb
            subst hb
            intro hab
            subst hab
            exact hm (List.mem_append_left _ ha)
          rw [← List.length_singleton (a := e), ← List.length_append]
          exact (length_eq_of_mem_iff hnd (hK.edges_nodup _ _ v1) (fun e' => by rw [v2]; simp)).symm
        have hle := flushC_le p1.inv.inv.c0wf h3
        have hone := flushC_one h3
        have hll : q.1.g.c0.live.length ≤ q.1.g.edgesOf.length := by unfold DK.edgesOf; simp
        refine ⟨by omega, fun hcap => ?_⟩
        have hz : d.rem = 0 := by
          rcases hd.bud with hz | hz
          · exact hz
          · have hse := p1.inv.inv.c0wf.size_eq
            rw [p2, p4, hse, p3] at hsz
            omega
        have h0 := hq.2 hz
        have h01 : q.2.1 = 0 := by rw [h0]
        have h02 : q.2.2 = 0 := by rw [h0]
        exact ⟨by omega, by omega⟩
      · split at h
        · cases h; exact small
        · cases h

end DKD

/-! ## C76 -/

open DK
variable {K : K2Impl}

/-- C76: one `add_edge` of a `DKtree_delay`, in any state and with any thresholds, performs at most two tree unions; on
graphs of 256 vertices or more, after any insertion history, at most one, and it writes at most `2·(m+1)` edges into trees,
where `m = get_number_edges()`; with any thresholds, at most `3·(m+1)`. -/
theorem C76_work (hK : K.Lawful) (nd : Bool) :
    (∀ (S : Sizing) (d : DKD K) (e : Edge) (r : DKD K × Nat × Nat), d.addEdgeC nd S e = .ok r → r.2.1 ≤ 2) ∧
    (∀ (S : Sizing), S.Top → ∀ (n : Nat), 2 ≤ n → ∀ (es : List Edge), (∀ e ∈ es, InRange n e) →
      ∀ d, DKD.run nd K S n (inserts es) = .ok d → ∀ e, InRange n e → ∀ r, d.addEdgeC nd S e = .ok r →
        r.2.2 ≤ 3 * (d.numberEdges + 1)) ∧
    (∀ (n : Nat), 256 ≤ n → ∀ (es : List Edge), (∀ e ∈ es, InRange n e) →
      ∃ d, DKD.run nd K realSizing n (inserts es) = .ok d ∧ ∀ e, InRange n e →
        ∃ r, d.addEdgeC nd realSizing e = .ok r ∧ r.2.1 ≤ 1 ∧ r.2.2 ≤ 2 * (d.numberEdges + 1)) := by
  refine ⟨fun S d e r h => DKD.addEdgeC_two h, ?_, ?_⟩
  · intro S hT n h2 es hes d hr e he r h
    obtain ⟨d', h1, h3, h4, h5, h6⟩ := DKD.run_inserts hK hT h2 hes
    have : d = d' := by
      cases nd with
      | true => rw [h1] at hr; exact (Res.ok.inj hr).symm
      | false =>
        rcases h6 with ⟨h6, _⟩ | ⟨h6, _⟩
        · rw [h6] at hr; cases hr
        · rw [h6] at hr; exact (Res.ok.inj hr).symm
    subst this
    have := (h4.addEdgeC hK (by rw [h3]; exact he) h).1
    have := h4.le
    unfold DKD.numberEdges
    omega
  · intro n hn es hes
    obtain ⟨d', h1, h3, h4, h5, h6⟩ := DKD.run_inserts hK realSizing_top (by omega) hes
    have hrun : DKD.run nd K realSizing n (inserts es) = .ok d' := by
      rcases h6 with ⟨_, m, hm, hc⟩ | ⟨h6, h7, h8⟩
      · have := realSizing_cap7 (m := m) (by omega); omega
      · cases nd
        · exact h6
        · exact h1
    refine ⟨d', hrun, ?_⟩
    intro e he
    have he' : InRange d'.g.nv e := by rw [h3]; exact he
    have hcap := realSizing_cap7 (m := max d'.g.nv d'.g.nTotal) (by omega)
    obtain ⟨d'', hadd⟩ : ∃ d'', d'.addEdge nd realSizing e = .ok d'' := by
      rcases h4.addEdge hK realSizing_top he' (by omega) with ⟨_, h, _⟩ | ⟨d'', a1, a2, _⟩
      · omega
      · exact ⟨d'', by cases nd; exact a1; exact a2⟩
    rw [← DKD.addEdgeC_fst] at hadd
    obtain ⟨r, hr, _⟩ := Res.bind_eq_ok.1 hadd
    obtain ⟨_, b⟩ := h4.addEdgeC hK he' hr
    obtain ⟨b1, b2⟩ := b hcap
    refine ⟨r, hr, b1, ?_⟩
    have := h4.le
    unfold DKD.numberEdges
    omega

/-- Counted calls on 8 vertices: the 9th insertion finishes a pending merge (one union of 8 edges) and buffers its edge; the
12th flushes (2 edges into `tmp`, one union of 4). -/
example : ∃ d d' r r', DKD.run false refK2 realSizing 8 (inserts (w25.take 8)) = .ok d ∧
    d.addEdgeC false realSizing (7, 7) = .ok r ∧ r.2 = (1, 8) ∧
    DKD.run false refK2 realSizing 8 (inserts (w25.take 11)) = .ok d' ∧
    d'.addEdgeC false realSizing (7, 7) = .ok r' ∧ r'.2 = (1, 6) := by
  have h1 : check (DKD.run false refK2 hybSizing 8 (inserts (w25.take 8))) (fun d =>
    check (d.addEdgeC false hybSizing (7, 7)) (fun r => decide (r.2 = (1, 8)))) = true := by decide +kernel
  have h2 : check (DKD.run false refK2 hybSizing 8 (inserts (w25.take 11))) (fun d =>
    check (d.addEdgeC false hybSizing (7, 7)) (fun r => decide (r.2 = (1, 6)))) = true := by decide +kernel
  rw [← realSizing_eq_hyb] at h1 h2
  obtain ⟨d, a1, h1⟩ := check_iff.1 h1
  obtain ⟨r, a2, h1⟩ := check_iff.1 h1
  obtain ⟨d', b1, h2⟩ := check_iff.1 h2
  obtain ⟨r', b2, h2⟩ := check_iff.1 h2
  exact ⟨d, d', r, r', a1, a2, of_decide_eq_true h1, b1, b2, of_decide_eq_true h2⟩

end DK2
