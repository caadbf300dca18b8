import Verif.MunroFast
import Verif.Tab128
import Verif.PropsMunro
/-!
# Property theorems: `DKtree_delay_munro` when a merge is late (C54, C69)

For `k = 2` a merge may need more steps than the insertions that fill the buffer again: the assertion of `add_edge`
fails, and without assertions the edges of the unfinished merge are lost.
-/

namespace DK2
open DK Bits

namespace DKM

/-! ## C54 refuted for `k = 2` -/

/-- 422 edges on 128 vertices: they leave trees in levels 0 to 6 and 11 edges in the buffer. -/
def wG : List Edge := [
  (0, 8), (1, 8), (0, 9), (1, 9), (2, 8), (3, 8), (2, 9), (3, 9), (0, 10), (1, 10), (0, 11), (1, 11), (2, 10),
  (3, 10), (2, 11), (3, 11), (4, 8), (5, 8), (4, 9), (5, 9), (6, 8), (7, 8), (6, 9), (7, 9), (4, 10), (5, 10),
  (4, 11), (5, 11), (6, 10), (7, 10), (6, 11), (7, 11), (0, 12), (1, 12), (0, 13), (1, 13), (2, 12), (3, 12),
  (2, 13), (3, 13), (0, 14), (1, 14), (0, 15), (1, 15), (2, 14), (3, 14), (2, 15), (3, 15), (4, 12), (5, 12),
  (4, 13), (5, 13), (6, 12), (7, 12), (6, 13), (7, 13), (4, 14), (5, 14), (4, 15), (5, 15), (6, 14), (7, 14),
  (6, 15), (7, 15), (8, 8), (9, 8), (8, 9), (9, 9), (10, 8), (11, 8), (10, 9), (11, 9), (8, 10), (9, 10), (8, 11),
  (9, 11), (10, 10), (11, 10), (10, 11), (11, 11), (12, 8), (13, 8), (12, 9), (13, 9), (14, 8), (15, 8), (14, 9),
  (15, 9), (12, 10), (13, 10), (12, 11), (13, 11), (14, 10), (15, 10), (14, 11), (15, 11), (0, 0), (1, 0), (0, 1),
  (1, 1), (2, 0), (3, 0), (2, 1), (3, 1), (0, 2), (1, 2), (0, 3), (1, 3), (2, 2), (3, 2), (2, 3), (3, 3), (4, 0),
  (5, 0), (4, 1), (5, 1), (6, 0), (7, 0), (6, 1), (7, 1), (4, 2), (5, 2), (4, 3), (5, 3), (6, 2), (7, 2), (6, 3),
  (7, 3), (0, 4), (1, 4), (0, 5), (1, 5), (2, 4), (3, 4), (2, 5), (3, 5), (0, 6), (1, 6), (0, 7), (1, 7), (2, 6),
  (3, 6), (2, 7), (3, 7), (4, 4), (5, 4), (4, 5), (5, 5), (6, 4), (7, 4), (6, 5), (7, 5), (4, 6), (5, 6), (4, 7),
  (5, 7), (6, 6), (7, 6), (6, 7), (7, 7), (8, 0), (9, 0), (8, 1), (9, 1), (10, 0), (11, 0), (10, 1), (11, 1),
  (8, 2), (9, 2), (8, 3), (9, 3), (10, 2), (11, 2), (10, 3), (11, 3), (12, 0), (13, 0), (12, 1), (13, 1), (14, 0),
  (15, 0), (14, 1), (15, 1), (12, 2), (13, 2), (12, 3), (13, 3), (14, 2), (15, 2), (14, 3), (15, 3), (8, 4),
  (9, 4), (8, 5), (9, 5), (10, 4), (28, 0), (29, 0), (28, 1), (29, 1), (30, 0), (31, 0), (30, 1), (31, 1), (28, 2),
  (29, 2), (28, 3), (29, 3), (30, 2), (31, 2), (30, 3), (31, 3), (24, 4), (25, 4), (24, 5), (25, 5), (26, 4),
  (27, 4), (26, 5), (27, 5), (24, 6), (25, 6), (24, 7), (25, 7), (26, 6), (27, 6), (26, 7), (27, 7), (28, 4),
  (29, 4), (28, 5), (29, 5), (30, 4), (31, 4), (30, 5), (31, 5), (28, 6), (29, 6), (28, 7), (29, 7), (30, 6),
  (31, 6), (30, 7), (31, 7), (16, 8), (17, 8), (16, 9), (17, 9), (18, 8), (19, 8), (18, 9), (19, 9), (16, 10),
  (17, 10), (16, 11), (17, 11), (18, 10), (19, 10), (18, 11), (19, 11), (16, 0), (17, 0), (16, 1), (17, 1),
  (18, 0), (19, 0), (18, 1), (19, 1), (16, 2), (17, 2), (16, 3), (17, 3), (18, 2), (19, 2), (18, 3), (19, 3),
  (20, 0), (21, 0), (20, 1), (21, 1), (22, 0), (23, 0), (22, 1), (23, 1), (20, 2), (21, 2), (20, 3), (21, 3),
  (22, 2), (23, 2), (22, 3), (23, 3), (16, 4), (17, 4), (16, 5), (17, 5), (18, 4), (19, 4), (18, 5), (19, 5),
  (16, 6), (17, 6), (16, 7), (17, 7), (18, 6), (19, 6), (18, 7), (19, 7), (20, 4), (21, 4), (20, 5), (21, 5),
  (22, 4), (23, 4), (22, 5), (23, 5), (20, 6), (21, 6), (20, 7), (21, 7), (22, 6), (23, 6), (22, 7), (23, 7),
  (24, 0), (25, 0), (24, 1), (25, 1), (26, 0), (27, 0), (26, 1), (27, 1), (24, 2), (25, 2), (24, 3), (20, 8),
  (21, 8), (20, 9), (21, 9), (22, 8), (23, 8), (22, 9), (23, 9), (20, 10), (21, 10), (20, 11), (21, 11), (22, 10),
  (23, 10), (22, 11), (23, 11), (16, 12), (17, 12), (16, 13), (17, 13), (18, 12), (19, 12), (18, 13), (19, 13),
  (16, 14), (17, 14), (16, 15), (17, 15), (18, 14), (19, 14), (18, 15), (19, 15), (20, 12), (21, 12), (20, 13),
  (21, 13), (22, 12), (23, 12), (22, 13), (23, 13), (20, 14), (21, 14), (80, 32), (16, 96), (80, 96), (48, 32),
  (112, 32), (48, 96), (112, 96), (0, 16), (64, 16), (0, 80), (64, 80), (32, 16), (96, 16), (32, 80), (96, 80),
  (0, 48), (64, 48), (0, 112), (64, 112), (32, 48), (96, 48), (32, 112), (96, 32), (32, 96), (96, 96), (80, 0),
  (16, 64), (80, 64), (48, 0), (112, 0), (48, 64), (112, 64), (16, 32), (64, 0), (0, 64), (64, 64), (32, 0),
  (96, 0), (32, 64), (96, 64), (0, 32), (64, 32), (0, 96), (64, 96)
]

/-- 11 more. -/
def wX : List Edge := [
  (11, 4), (10, 5), (11, 5), (8, 6), (9, 6), (8, 7), (9, 7), (10, 6), (11, 6), (10, 7), (11, 7)]

/-- `real 2 nd` with the thresholds by table. -/
noncomputable def P128 (nd : Bool) : MPar := ⟨2, fun n => max 1 (Nat.clog 2 n), S128, nd⟩

theorem real_eq_128 (nd : Bool) : real 2 nd = P128 nd := by
  unfold real P128; rw [realSizing_eq_128]

/-- The inserted edges are distinct and in range. -/
theorem wAll_ok : (wG ++ (32, 32) :: (wX ++ [(12, 4)])).Nodup ∧
    ∀ e ∈ wG ++ (32, 32) :: (wX ++ [(12, 4)]), InRange 128 e := by decide +kernel

/-- Where the history stands before the late merge, the level the merge goes to, and the number of its steps. -/
theorem wPlan : (let s := fplan S128 128 wG
    decide (s.nT = 422 ∧ s.live.length = 11 ∧ S128.maxsz (max 128 s.nT) 0 = 11 ∧ S128.maxsz (max 128 (s.nT + 1 + 11)) 0 = 11 ∧
      fsel S128 (max 128 s.nT) s.ls 0 (S128.maxsz (max 128 s.nT) 0) = some 6 ∧
      13 * US.iterSize (4 * (fcnt 2 7 (s.live ++ [(32, 32)]) 7 + fgrp 2 7 (s.ls.take 7))) (s.live ++ [(32, 32)]).length <
        fwork 2 7 (s.live ++ [(32, 32)]) s.ls 7)) = true := by decide +kernel

theorem wCtx (nd : Bool) : Ctx (real 2 nd) 128 1000 := real_ctx _ (by norm_num) (by norm_num) (Or.inl (by decide +kernel))

/-- 435 distinct insertions on 128 vertices fail the assertion. -/
theorem wAbort : run (real 2 false) 128 (inserts (wG ++ (32, 32) :: (wX ++ [(12, 4)]))) = .abort := by
  have hlen : wG.length = 422 := by decide +kernel
  have hlx : wX.length = 11 := rfl
  have hwp := wPlan
  simp only [decide_eq_true_eq] at hwp
  obtain ⟨h1, h2, h3, h4, h5, h6⟩ := hwp
  have hc := wCtx false
  have hg : wG.Nodup := (List.nodup_append.1 wAll_ok.1).1
  obtain ⟨hpl, G', hG'1, hG'2, hG'3⟩ := plan_eq_fplan (P128 false) 128 hg
  have hS : (P128 false).S = S128 := rfl
  rw [hS] at hpl
  have hH : (P128 false).H 128 = 7 := by decide +kernel
  rw [real_eq_128] at hc ⊢
  have hT : (P128 false).S.Top := by rw [hS, ← realSizing_eq_128]; exact realSizing_top
  have hlev : ∀ E, some E ∈ (fplan S128 128 wG).ls → E.Nodup := by
    rw [hpl] at hG'2
    intro E hE
    have hnod := hG'2.symm.nodup hG'3
    rw [List.nodup_append] at hnod
    refine List.Nodup.sublist ?_ hnod.1
    have : E ∈ (fplan S128 128 wG).ls.map (fun o => o.getD []) := List.mem_map.2 ⟨some E, hE, rfl⟩
    exact List.sublist_flatten_of_mem this
  generalize fplan S128 128 wG = s at *
  obtain ⟨ls, live, nT⟩ := s
  simp only at h1 h2 h3 h4 h5 h6 hlev
  refine late_abort hT hc rfl wAll_ok.2 wAll_ok.1 (by rw [hlen, hlx]; norm_num) (i := 6) (it := _) hpl ?_ ?_ rfl ?_ ?_
  · rw [hS, h3, h2]
  · rw [hS, hH, sel_eq_fsel _ _ _ _ _ _ _ _ hlev]; exact h5
  · rw [hlx, hH]
    show 13 * US.iterSize (US.totalIter (US.stored 2 7 128 _) 6 (BT.encode 2 7 128 _)) _ < US.work 2 7 _ _ 7
    rw [totalIter_eq (by norm_num) (by norm_num), work_eq_fwork (by norm_num), grp_eq_fgrp (by norm_num),
      cnt_eq_fcnt (k := 2) (h := 7) (by norm_num) _ 7 (le_refl _)]
    exact h6
  · rw [hS, hlx, h4]

/-- C54 fails: 435 distinct insertions on 128 vertices, `k = 2`, stop at `assert(union_support.has_finish())`. -/
theorem C54_refuted : ¬ C54_Full := by
  intro h
  have hlen : (wG ++ (32, 32) :: (wX ++ [(12, 4)])).length = 435 := by decide +kernel
  obtain ⟨d, hd⟩ := h false 2 128 1000 (inserts (wG ++ (32, 32) :: (wX ++ [(12, 4)]))) (wCtx false)
    (by
      intro o ho
      obtain ⟨x, hx, rfl⟩ := List.mem_map.1 ho
      exact wAll_ok.2 x hx)
    (by rw [added_inserts, hlen]; norm_num)
  rw [wAbort] at hd
  cases hd

/-! ## C69 without assertions, a late merge loses edges -/

/-- While the assertion does not fail, both builds do the same. -/
theorem run_nd {k n : Nat} {ops : List Op} {d : DKM} (h : run (real k false) n ops = .ok d) : run (real k true) n ops = .ok d := by
  have hadd : ∀ (d d' : DKM) (e : Edge), d.addEdge (real k false) e = .ok d' → d.addEdge (real k true) e = .ok d' := by
    intro d d' e he
    unfold addEdge at he ⊢
    have hu : unionStep (real k true) d = unionStep (real k false) d := rfl
    rw [hu]
    obtain ⟨d1, h1, he⟩ := Res.bind_eq_ok.1 he
    rw [h1]
    simp only [Res.ok_bind]
    have hcn : contains (real k true) d1 e = contains (real k false) d1 e := rfl
    rw [hcn]
    obtain ⟨b, h2, he⟩ := Res.bind_eq_ok.1 he
    rw [h2]
    simp only [Res.ok_bind]
    cases b with
    | true => exact he
    | false =>
      simp only [Bool.false_eq_true, if_false] at he ⊢
      by_cases hs : d1.c0.size < realSizing.maxsz (max d1.nv d1.nTotal) 0
      · rw [if_pos (show d1.c0.size < (real k false).S.maxsz (max d1.nv d1.nTotal) 0 from hs)] at he
        rw [if_pos (show d1.c0.size < (real k true).S.maxsz (max d1.nv d1.nTotal) 0 from hs)]
        exact he
      · rw [if_neg (show ¬ d1.c0.size < (real k false).S.maxsz (max d1.nv d1.nTotal) 0 from hs)] at he
        rw [if_neg (show ¬ d1.c0.size < (real k true).S.maxsz (max d1.nv d1.nTotal) 0 from hs)]
        cases hf : d1.us.finish with
        | true => rw [hf] at he; exact he
        | false => rw [hf] at he; cases he
  have hfrom : ∀ (ops : List Op) (d d' : DKM), runFrom (real k false) d ops = .ok d' → runFrom (real k true) d ops = .ok d' := by
    intro ops
    induction ops with
    | nil => intro d d' h; exact h
    | cons o ops ih =>
      intro d d' h
      rw [runFrom] at h ⊢
      obtain ⟨d1, h1, h2⟩ := Res.bind_eq_ok.1 h
      have : step (real k true) d o = .ok d1 := by
        cases o with
        | add e => exact hadd d d1 e h1
        | del e => exact h1
      rw [this]
      exact ih d1 d' h2
  unfold run at h ⊢
  obtain ⟨d0, h1, h2⟩ := Res.bind_eq_ok.1 h
  have : create (real k true) n = create (real k false) n := rfl
  rw [this, h1]
  exact hfrom ops d0 d h2

/-- Adding `tmp_edge` again and again finishes the pending merge and changes nothing else. -/
theorem MInv.drain {P : MPar} (hT : P.S.Top) {n N : Nat} (hc : Ctx P n N) {es : List (Option (List Edge))} : ∀ (j : Nat) {q : Pd}
    {d : DKM}, US.work P.k (P.H n) q.F es (q.m + 1) - q.D ≤ j → MInv P n d es (some q) → d.nTotal + 1 ≤ N →
    ∃ m d' es', runFrom P d (inserts (List.replicate m d.tmpEdge)) = .ok d' ∧ MInv P n d' es' none ∧
      (∀ x, held d' es' none x ↔ held d es (some q) x) ∧ d'.nTotal = d.nTotal := by
  intro j
  induction j with
  | zero =>
    intro q d hj h _
    have := h.st.2.2.2.1
    omega
  | succ j ih =>
    intro q d hj h hN
    obtain ⟨f1, f2, f3, f4, f5, f6, f7, f8⟩ := h.st
    have hr : InRange n d.tmpEdge := f1.hFr _ f7
    have hpos : 0 < d.us.iter := by
      have hlen : 0 < q.F.length := List.length_pos_iff.2 f1.hF
      have w2 := iterSize_mul (t := US.totalIter (US.stored P.k (P.H n) n es) q.m (BT.encode P.k (P.H n) n q.F)) hlen
      rw [← f5] at w2
      have w3 : 0 < US.totalIter (US.stored P.k (P.H n) n es) q.m (BT.encode P.k (P.H n) n q.F) := by
        unfold US.totalIter; dsimp only; split <;> omega
      by_contra hcon
      rw [Nat.eq_zero_of_not_pos hcon, Nat.mul_zero] at w2
      omega
    obtain ⟨d1, es1, p1, u, H⟩ := h.addEdge hT hc hN hr
    have hh : held d1 es1 p1 d.tmpEdge := (u.held _).2 (Or.inr (Or.inl f7))
    have hseen : seen d1 es1 p1 d.tmpEdge := by
      rcases hh with a | a | a
      · exact Or.inl a
      · cases hp1 : p1 with
        | none => rw [hp1] at a; cases a
        | some q1 => exact Or.inr (Or.inl ⟨rfl, u.tmp⟩)
      · exact Or.inr (Or.inr a)
    rcases H with ⟨d', es', p', h1, h2, h3, h4⟩ | ⟨h1, _⟩
    · rcases h4 with ⟨_, rfl, rfl, rfl⟩ | ⟨a, _⟩
      · cases hp : p' with
        | none =>
          refine ⟨1, d', es', ?_, by rw [← hp]; exact h2, fun x => by rw [← hp]; exact u.held x, u.nT⟩
          show (do let y ← d.addEdge P d.tmpEdge; runFrom P y []) = _
          rw [h1]; rfl
        | some q1 =>
          subst hp
          rcases u.how with ⟨a, _⟩ | ⟨_, _, a, _⟩ | ⟨q0, a1, a2, a3, a4⟩
          · cases a
          · cases a
          · cases a1
            cases a2
            subst a3
            obtain ⟨m, d2, es2, b1, b2, b3, b4⟩ := ih (q := ⟨q.F, q.m, q.D + d.us.iter⟩) (d := d') (by simp only; omega) h2
              (by rw [u.nT]; exact hN)
            refine ⟨m + 1, d2, es2, ?_, b2, fun x => by rw [b3]; exact u.held x, by rw [b4, u.nT]⟩
            rw [u.tmp] at b1
            rw [List.replicate_succ]
            show (do let y ← d.addEdge P d.tmpEdge; runFrom P y (inserts (List.replicate m d.tmpEdge))) = _
            rw [h1]
            exact b1
      · exact absurd hseen a
    · exact absurd hseen h1

/-- With as many insertions as edges held, every edge is held once. -/
theorem MInv.batch_once {P : MPar} {n : Nat} {d : DKM} {es : List (Option (List Edge))} {p : Option Pd} (h : MInv P n d es p)
    {G : List Edge} (hG : G.Nodup) (hall : ∀ x ∈ G, held d es p x) (hn : d.nTotal ≤ G.length) {x : Edge} (hx : x ∈ batch p) :
    x ∉ d.c0.live ∧ ¬ edgesIn es x := by
  by_contra hcon
  have hx' : x ∈ d.c0.live ∨ edgesIn es x := by
    by_contra h2
    rw [not_or] at h2
    exact hcon h2
  have hflat : ∀ (ls : List (Option (List Edge))) (y : Edge), edgesIn ls y →
      y ∈ (ls.map (fun o => o.elim [] (fun E => E.dedup))).flatten := by
    rintro ls y ⟨E, hE, hy⟩
    exact List.mem_flatten.2 ⟨E.dedup, List.mem_map.2 ⟨some E, hE, rfl⟩, List.mem_dedup.2 hy⟩
  have hwt : ∀ ls : List (Option (List Edge)), (ls.map (fun o => o.elim [] (fun E => E.dedup))).flatten.length = wt ls := by
    intro ls
    rw [List.length_flatten, List.map_map]
    unfold wt
    congr 1
    apply List.map_congr_left
    intro o _
    cases o <;> rfl
  have hsub : G ⊆ d.c0.live ++ ((batch p).erase x ++ (es.map (fun o => o.elim [] (fun E => E.dedup))).flatten) := by
    intro y hy
    rw [List.mem_append, List.mem_append]
    by_cases hyx : y = x
    · subst hyx
      exact hx'.imp_right (fun h2 => Or.inr (hflat es y h2))
    · rcases hall y hy with a | a | a
      · exact Or.inl a
      · exact Or.inr (Or.inl ((List.mem_erase_of_ne hyx).2 a))
      · exact Or.inr (Or.inr (hflat es y a))
  have hlen := (List.subperm_of_subset hG hsub).length_le
  rw [List.length_append, List.length_append, hwt, List.length_erase_of_mem hx] at hlen
  have := h.cnt
  have : 0 < (batch p).length := List.length_pos_of_mem hx
  omega

/-- A call that fails the assertion: what it does without assertions. -/
theorem MInv.abort_nd {k n N : Nat} (hc : Ctx (real k true) n N) {d : DKM} {es : List (Option (List Edge))} {p : Option Pd}
    (h : MInv (real k true) n d es p) (hN : d.nTotal + 1 ≤ N) {e : Edge} (he : InRange n e)
    (ha : d.addEdge (real k false) e = .abort) :
    ∃ d1 es1 q d' es' p', Stepped (real k true) n d es p d1 es1 (some q) ∧ d.addEdge (real k true) e = .ok d' ∧
      MInv (real k true) n d' es' p' ∧ d'.nTotal = d.nTotal + 1 ∧ d'.tmpEdge = e ∧
      ∀ x, held d' es' p' x ↔ x = e ∨ x ∈ d1.c0.live ∨ edgesIn (US.rest es1 d1.us.ki) x := by
  obtain ⟨d1, es1, p1, u0, u⟩ := h.unionStep hc (by omega)
  have hi := u.inv
  obtain ⟨b, hb1, hb2⟩ := hi.contains hc he
  have u0' : DKM.unionStep (real k false) d = .ok d1 := u0
  have hb1' : DKM.contains (real k false) d1 e = .ok b := hb1
  have hret : DKM.addEdge (real k true) d e ≠ .abort := by
    obtain ⟨_, _, _, _, H⟩ := h.addEdge realSizing_top hc hN he
    rcases H with ⟨d', _, _, g1, _⟩ | ⟨_, _, _, _, ⟨g0, _⟩ | ⟨_, d', _, _, g1, _⟩⟩
    · rw [g1]; intro hh; cases hh
    · cases g0
    · rw [g1]; intro hh; cases hh
  unfold DKM.addEdge at hret
  rw [u0] at hret
  simp only [Res.ok_bind] at hret
  rw [hb1] at hret
  simp only [Res.ok_bind] at hret
  unfold DKM.addEdge at ha
  rw [u0'] at ha
  simp only [Res.ok_bind] at ha
  rw [hb1'] at ha
  simp only [Res.ok_bind] at ha
  cases b with
  | true => cases ha
  | false =>
    simp only [Bool.false_eq_true, if_false] at ha
    by_cases hlt : d1.c0.size < realSizing.maxsz (max d1.nv d1.nTotal) 0
    · rw [if_pos (show d1.c0.size < (real k false).S.maxsz (max d1.nv d1.nTotal) 0 from hlt)] at ha
      simp only [Bool.false_eq_true, if_false] at hret
      rw [if_pos (show d1.c0.size < (real k true).S.maxsz (max d1.nv d1.nTotal) 0 from hlt)] at hret
      exact absurd ha hret
    · rw [if_neg (show ¬ d1.c0.size < (real k false).S.maxsz (max d1.nv d1.nTotal) 0 from hlt)] at ha
      cases p1 with
      | none =>
        simp only [Bool.false_eq_true, if_false] at hret
        rw [if_neg (show ¬ d1.c0.size < (real k true).S.maxsz (max d1.nv d1.nTotal) 0 from hlt)] at hret
        rw [hi.st.1] at ha hret
        exact absurd ha hret
      | some q =>
        obtain ⟨h1, h2, h3, h4, h5, h6, h7, h8⟩ := hi.st
        have hki : d1.us.ki ≤ RS := by have := h2.i_le; have := h1.hm; rw [hi.lv.len] at this; omega
        have hw := wt_rest (es := es1) (i := d1.us.ki)
        have hcnt := hi.cnt
        obtain ⟨d', es', p', r1, r2, r3, r4, r5, r6, r7, r8⟩ := flush_spec realSizing_top hc hi.wf hi.c0nv hi.rng hi.nv
          (hi.lv.rest hki) (tops_rest hi.top.1) hi.top.2.2 (by omega) h2.ks_eq (by rw [u.nT]; exact hN) hlt he
        refine ⟨d1, es1, q, d', es', p', u, ?_, r2, by rw [r3, u.nT], r7, r5⟩
        unfold DKM.addEdge
        rw [u0]
        simp only [Res.ok_bind]
        rw [hb1]
        simp only [Res.ok_bind, Bool.false_eq_true, if_false]
        rw [if_neg (show ¬ d1.c0.size < (real k true).S.maxsz (max d1.nv d1.nTotal) 0 from hlt),
          show (d1.us.finish || (real k true).nd) = true by simp [real], if_pos rfl]
        exact r1

/-- C69: in every build, whenever no merge is pending, every inserted edge is present. -/
def C69_Full : Prop :=
  ∀ (nd : Bool) (k n N : Nat) (ops : List Op) (d : DKM), Ctx (real k nd) n N → OpsInRange n ops → (added ops).length ≤ N →
    run (real k nd) n ops = .ok d → d.us.finish = true → ∀ e, Op.add e ∈ ops → d.contains (real k nd) e = .ok true

/-- Every history of distinct insertions that fails the assertion loses edges when assertions are compiled out: the call
that would have failed returns, and once the merge it started is finished, an edge inserted before is absent — while
`get_number_edges` still counts it. -/
theorem C69_loss {k n N : Nat} (hc : ∀ nd, Ctx (real k nd) n N) {G : List Edge} (hr : ∀ e ∈ G, InRange n e) (hG : G.Nodup)
    (hN : G.length + 1 ≤ N) (ha : run (real k false) n (inserts G) = .abort) :
    ∃ pre e post m d x, G = pre ++ e :: post ∧ run (real k true) n (inserts (pre ++ e :: List.replicate m e)) = .ok d ∧
      d.us.finish = true ∧ x ∈ pre ∧ d.contains (real k true) x = .ok false ∧ d.numberEdges = pre.length + 1 := by
  -- the first call that fails
  have hfirst : ∀ (H : List Edge), (∀ e ∈ H, InRange n e) → H.length ≤ N → run (real k false) n (inserts H) = .abort →
      ∃ pre e post d, H = pre ++ e :: post ∧ run (real k false) n (inserts pre) = .ok d ∧ d.addEdge (real k false) e = .abort := by
    intro H
    induction H using List.reverseRecOn with
    | nil => intro _ _ h0; rw [show inserts ([] : List Edge) = [] from rfl, run_nil _ (hc false).two] at h0; cases h0
    | append_singleton H e ih =>
      intro hr hN h0
      rw [List.length_append, List.length_singleton] at hN
      have hin : OpsInRange n (inserts H) := by
        intro o ho
        obtain ⟨x, hx, rfl⟩ := List.mem_map.1 ho
        exact hr x (by simp [hx])
      rcases C54_outcome_partial (hc false) hin (by rw [added_inserts]; omega) with ⟨_, h1⟩ | ⟨d, h1⟩
      · obtain ⟨pre, e', post, d, a1, a2, a3⟩ := ih (fun x hx => hr x (by simp [hx])) (by omega) h1
        exact ⟨pre, e', post ++ [e], d, by rw [a1]; simp, a2, a3⟩
      · rw [inserts_snoc, run_snoc, h1] at h0
        exact ⟨H, e, [], d, rfl, h1, h0⟩
  obtain ⟨pre, e, post, d, rfl, h1, h2⟩ := hfirst G hr (by omega) ha
  have hrp : ∀ x ∈ pre, InRange n x := fun x hx => hr x (by simp [hx])
  have hnp := List.nodup_append.1 hG
  rw [List.length_append, List.length_cons] at hN
  have hin : OpsInRange n (inserts pre) := by
    intro o ho
    obtain ⟨x, hx, rfl⟩ := List.mem_map.1 ho
    exact hrp x hx
  obtain ⟨es, p, t⟩ := run_ok realSizing_top (hc false).cond hin (by rw [added_inserts]; omega) h1
  rw [added_inserts] at t
  have hlo := t.lo
  have hhi := t.hi
  rw [hnp.1.dedup] at hlo
  have hinv : MInv (real k true) n d es p := ⟨t.inv.wf, t.inv.c0nv, t.inv.c0m, t.inv.rng, t.inv.nv, t.inv.lv, t.inv.cnt, t.inv.st, t.inv.top⟩
  obtain ⟨d1, es1, q, d', es', p', u, g1, g2, g3, g4, g5⟩ := hinv.abort_nd (hc true) (by omega) (hr e (by simp)) h2
  obtain ⟨x, hx⟩ := List.exists_mem_of_ne_nil _ u.inv.st.1.hF
  obtain ⟨o1, o2⟩ := u.inv.batch_once hnp.1 (fun y hy => (u.held y).2 (t.comp rfl y hy)) (by rw [u.nT]; exact hhi) (x := x) hx
  have hxp : x ∈ pre := t.sound x ((u.held x).1 (Or.inr (Or.inl hx)))
  have hxe : x ≠ e := fun hh => hnp.2.2 x hxp e (by simp) hh
  have hlost : ¬ held d' es' p' x := by
    rw [g5]
    rintro (a | a | a)
    · exact hxe a
    · exact o1 a
    · exact o2 (edgesIn_rest a)
  have hrun1 : run (real k true) n (inserts (pre ++ [e])) = .ok d' := by
    rw [inserts_snoc, run_snoc, run_nd h1]; exact g1
  obtain ⟨m, d2, es2, k1, k2, k3, k4⟩ : ∃ m d2 es2, runFrom (real k true) d' (inserts (List.replicate m e)) = .ok d2 ∧
      MInv (real k true) n d2 es2 none ∧ d2.nTotal = d'.nTotal ∧ ¬ held d2 es2 none x := by
    cases hp : p' with
    | none => rw [hp] at g2 hlost; exact ⟨0, d', es', rfl, g2, rfl, hlost⟩
    | some q' =>
      rw [hp] at g2 hlost
      obtain ⟨m, d2, es2, a1, a2, a3, a4⟩ := g2.drain realSizing_top (hc true) _ (le_refl _) (by omega)
      rw [g4] at a1
      exact ⟨m, d2, es2, a1, a2, a4, by rw [a3]; exact hlost⟩
  refine ⟨pre, e, post, m, d2, x, rfl, ?_, k2.finish_iff.2 rfl, hxp, ?_, by show d2.nTotal = _; omega⟩
  · have : inserts (pre ++ e :: List.replicate m e) = inserts (pre ++ [e]) ++ inserts (List.replicate m e) := by
      rw [← inserts_append]; simp
    rw [this]
    unfold run at hrun1 ⊢
    obtain ⟨d0, j1, j2⟩ := Res.bind_eq_ok.1 hrun1
    rw [j1]
    simp only [Res.ok_bind]
    rw [runFrom_append, j2]
    exact k1
  · obtain ⟨b, c1, c2⟩ := k2.contains (hc true) (hrp x hxp)
    rw [c1]
    cases b with
    | false => rfl
    | true => exact absurd (k2.seen_held (c2.1 rfl)) k4

/-- C69 fails: 435 distinct insertions on 128 vertices with `k = 2` and assertions compiled out. -/
theorem C69_refuted : ¬ C69_Full := by
  intro h
  have hlen : (wG ++ (32, 32) :: (wX ++ [(12, 4)])).length = 435 := by decide +kernel
  obtain ⟨pre, e, post, m, d, x, h1, h2, h3, h4, h5, _⟩ := C69_loss wCtx wAll_ok.2 wAll_ok.1 (by rw [hlen]; norm_num) wAbort
  have hpl : pre.length + post.length + 1 = 435 := by
    rw [← hlen, h1, List.length_append, List.length_cons]; omega
  have hmem : ∀ y ∈ pre ++ e :: List.replicate m e, InRange 128 y := by
    intro y hy
    have hy' : y ∈ pre ++ e :: post := by
      clear h1
      simp only [List.mem_append, List.mem_cons, List.mem_replicate] at hy ⊢
      rcases hy with a | a | a
      · exact Or.inl a
      · exact Or.inr (Or.inl a)
      · exact Or.inr (Or.inl a.2)
    rw [← h1] at hy'
    exact wAll_ok.2 y hy'
  have hc : Ctx (real 2 true) 128 (1000 + m) := real_ctx _ (by norm_num) (by norm_num) (Or.inl (by decide +kernel))
  have := h true 2 128 (1000 + m) _ d hc
    (by
      intro o ho
      obtain ⟨y, hy, rfl⟩ := List.mem_map.1 ho
      exact hmem y hy)
    (by rw [added_inserts, List.length_append, List.length_cons, List.length_replicate]; omega)
    h2 h3 x (List.mem_map.2 ⟨x, by simp [h4], rfl⟩)
  rw [h5] at this
  cases this

/-- C69 for builds with assertions. -/
theorem C69_assert_partial {k n N : Nat} (hc : Cond (real k false) n N) {ops : List Op} (hr : OpsInRange n ops)
    (hN : (added ops).length ≤ N) {d : DKM} (h : run (real k false) n ops = .ok d) (hf : d.us.finish = true)
    {e : Edge} (he : Op.add e ∈ ops) : d.contains (real k false) e = .ok true := by
  have hi : InRange n e := hr _ he
  rw [C51 hc hr hN h hf hi, decide_eq_true he]

/-- C69 for `k ≥ 3`, without assertions. -/
theorem C69_k3_partial {k n N : Nat} (hk : 3 ≤ k) (h3 : 3 ≤ n) (hc : Cond (real k true) n N) {ops : List Op}
    (hr : OpsInRange n ops) (hN : (added ops).length ≤ N) {d : DKM} (h : run (real k true) n ops = .ok d)
    (hf : d.us.finish = true) {e : Edge} (he : Op.add e ∈ ops) : d.contains (real k true) e = .ok true := by
  have hi : InRange n e := hr _ he
  rw [C51_k3 hk h3 hc hr hN h hf hi, decide_eq_true he]

/-- C69 for `k = 2`, without assertions, for fewer than `MAXSZ(n,4)` insertions. -/
theorem C69_k2_partial {n N : Nat} (h8 : 8 ≤ n) (hc : ∀ nd, Ctx (real 2 nd) n N) (hsz : N < realSizing.maxsz n 4) {ops : List Op}
    (hr : OpsInRange n ops) (hN : (added ops).length ≤ N) {d : DKM} (h : run (real 2 true) n ops = .ok d)
    (hf : d.us.finish = true) {e : Edge} (he : Op.add e ∈ ops) : d.contains (real 2 true) e = .ok true := by
  obtain ⟨d', h1⟩ := C54_k2_partial (nd := false) h8 (hc false) hsz hr hN
  have h2 := run_nd h1
  rw [h] at h2
  cases h2
  exact C69_assert_partial (hc false).cond hr hN h1 hf he

/-- Non-vacuity: 17 insertions with a merge done, in both builds, below the bound. -/
example : 17 < realSizing.maxsz 256 4 ∧ ∃ d, run (real 2 true) 256 (inserts (w18.take 17)) = .ok d ∧ d.us.finish = true ∧
    d.contains (real 2 true) (126, 99) = .ok true := by
  have h4 : 17 < realSizing.maxsz 256 4 := by rw [real256 4 (by norm_num)]; decide
  refine ⟨h4, ?_⟩
  have hc : check (run (P256 true) 256 (inserts (w18.take 17))) (fun d => d.us.finish) = true := by decide +kernel
  rw [← real_eq_256] at hc
  obtain ⟨d, h1, h2⟩ := check_iff.1 hc
  have hx : ∀ nd, Ctx (real 2 nd) 256 17 := fun nd => real_ctx _ (by norm_num) (by norm_num) (Or.inl (by decide +kernel))
  exact ⟨d, h1, h2, C69_k2_partial (by norm_num) hx h4 (by decide) (by decide) h1 h2 (by decide)⟩

end DKM
end DK2
