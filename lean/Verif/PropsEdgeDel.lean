import Verif.EdgeDel
import Verif.RealTab
import Verif.BitK2
/-!
# C92: an edge loop whose body inserts and deletes edges
-/

namespace DK2
variable {K : K2Impl}
namespace HG

/-- The calls made by the body when the loop visits `l`, having visited `vs` before. -/
def trace (body : List Edge → Edge → List Op) : List Edge → List Edge → List Op
  | _, [] => []
  | vs, e :: l => body vs e ++ trace body (vs ++ [e]) l

/-- The body deletes only edges it has been shown. -/
def VisitedOnly (body : List Edge → Edge → List Op) : Prop :=
  ∀ vs e, ∀ d ∈ delsOf (body vs e), d ∈ vs ++ [e]

theorem delsOf_trace {body : List Edge → Edge → List Op} (hv : VisitedOnly body) :
    ∀ (l vs : List Edge), ∀ d ∈ delsOf (trace body vs l), d ∈ vs ++ l := by
  intro l
  induction l with
  | nil => intro vs d hd; simp [trace, delsOf] at hd
  | cons e l ih =>
    intro vs d hd
    simp only [trace] at hd
    rw [delsOf_append, List.mem_append] at hd
    rcases hd with hd | hd
    · have := hv vs e d hd
      simp only [List.mem_append, List.mem_cons, List.not_mem_nil, or_false] at this ⊢
      tauto
    · have := ih _ d hd
      simp only [List.mem_append, List.mem_cons, List.not_mem_nil, or_false] at this ⊢
      tauto

/-- The state of the loop: `L` is what lies ahead, `D` was named in deletions so far. -/
structure At (n : Nat) (E0 : Nat → List Edge) (D : List Edge) (r : Heap K × HG) (it : DIt) (L : List Edge) : Prop where
  own : Own r.1 r.2.ps
  track : ∃ G, DK.Track (view r.1 r.2) G
  nv : r.2.nv = n
  wf : it.v.c0.WF
  fits : Fits E0 it
  ahead : DK.EAt it.v L
  nomax : DK.maxEdge ∉ L
  cells : ∀ a, some a ∈ it.ps → ∃ t, r.1[a]? = some t ∧ (K.edges t).Sublist (E0 a) ∧
    ∀ e ∈ E0 a, e ∉ D → e ∈ K.edges t

theorem EAt_nil {v : DK.EIt} (h : DK.EAt v []) : DK.eCur v = none := by
  rcases h with ⟨_, _, _, _, _, _, _, _, h⟩ | ⟨_, _, _, _, _, _, _, h⟩ | ⟨h, _⟩
  · simp at h
  · simp at h
  · unfold DK.eCur; rw [if_pos h]

theorem EAt_cons {v : DK.EIt} (hw : v.c0.WF) {x : Edge} {L : List Edge} (h : DK.EAt v (x :: L))
    (hm : DK.maxEdge ∉ x :: L) : DK.eCur v = some x := by
  obtain ⟨h1, _⟩ := h.next hw
  unfold DK.eCur
  rw [h1, if_neg]
  intro hh; exact hm (by simp [hh])

theorem At.lt {n : Nat} {E0 : Nat → List Edge} {D : List Edge} {r : Heap K × HG} {it : DIt} {L : List Edge}
    (h : At n E0 D r it L) (a : Nat) (ha : some a ∈ it.ps) : a < r.1.length := by
  obtain ⟨t, ht, _⟩ := h.cells a ha
  exact (List.getElem?_eq_some_iff.1 ht).1

/-- The body's calls. -/
theorem At.body (hK : K.Lawful) (hF : K.ForcedPure) (hO : K.KeepsOrder) (S : Sizing) {n : Nat} (h2 : 2 ≤ n)
    {E0 : Nat → List Edge} {D : List Edge} {r r1 : Heap K × HG} {it : DIt} {L : List Edge} (h : At n E0 D r it L)
    {ops : List Op} (hops : OpsInRange n ops) (hr : runFrom S r ops = .ok r1) :
    At n E0 (D ++ delsOf ops) r1 it L ∧ DK.runFrom S (view r.1 r.2) ops = .ok (view r1.1 r1.2) := by
  obtain ⟨G, ht⟩ := h.track
  obtain ⟨b1, b2, b3, b4, b5⟩ := runFrom_shrunk hK hF hO S h2 ops h.own ht h.nv hops hr
  refine ⟨⟨b2, b3, b4, h.wf, h.fits, h.ahead, h.nomax, fun a ha => ?_⟩, b1⟩
  obtain ⟨t, c1, c2, c3⟩ := h.cells a ha
  obtain ⟨t', d1, d2, d3⟩ := b5 a t c1
  refine ⟨t', d1, d2.trans c2, fun e he hd => ?_⟩
  rw [List.mem_append, not_or] at hd
  exact d3 e (c3 e he hd.1) hd.2

/-- `++` that succeeds. -/
theorem At.moved {n : Nat} {E0 : Nat → List Edge} {D : List Edge} {r : Heap K × HG} {it it' : DIt} {x : Edge}
    {L : List Edge} (h : At n E0 D r it (x :: L)) (hm : Moved E0 r.1 it it' L) :
    ∃ L1 L2, L = L1 ++ L2 ∧ At n E0 D r it' L2 ∧ ∀ e ∈ L1, e ∈ D := by
  obtain ⟨m1, m2, m3, L1, L2, m4, m5, m6⟩ := hm
  refine ⟨L1, L2, m4, ⟨h.own, h.track, h.nv, by rw [m2]; exact h.wf, m3, m5, ?_, by rw [m1]; exact h.cells⟩, ?_⟩
  · intro hh; exact h.nomax (by rw [m4]; simp [hh])
  · intro e he
    obtain ⟨a, t, c1, c2, c3, c4⟩ := m6 e he
    obtain ⟨t', d1, _, d3⟩ := h.cells a c1
    rw [c3] at d1; cases d1
    by_contra hd
    exact c4 (d3 e c2 hd)

/-- What a loop that ends has done. -/
theorem dLoop_ok (hK : K.Lawful) (hF : K.ForcedPure) (hO : K.KeepsOrder) (nd : Bool) (S : Sizing) {n : Nat} (h2 : 2 ≤ n)
    {body : List Edge → Edge → List Op} (look : Nat → Edge → Bool) {E0 : Nat → List Edge} :
    ∀ (f : Nat) {vs D L : List Edge} {r : Heap K × HG} {it : DIt} {res : List Edge × (Heap K × HG)}, At n E0 D r it L →
      (∀ vs, ∀ e ∈ L, OpsInRange n (body vs e)) → dLoop nd S body look f vs r it = .ok res →
      res.1.Sublist L ∧ (∀ e ∈ L, e ∉ res.1 → e ∈ D ++ delsOf (trace body vs res.1)) ∧
      DK.runFrom S (view r.1 r.2) (trace body vs res.1) = .ok (view res.2.1 res.2.2) ∧ Own res.2.1 res.2.2.ps := by
  intro f
  induction f with
  | zero => intro vs D L r it res _ _ hr; cases hr
  | succ f ih =>
    intro vs D L r it res h hb hr
    cases L with
    | nil =>
      rw [dLoop, EAt_nil h.ahead] at hr
      cases hr
      exact ⟨List.Sublist.refl _, by simp, rfl, h.own⟩
    | cons x L =>
      rw [dLoop, EAt_cons h.wf h.ahead h.nomax] at hr
      simp only [Res.bind_eq_ok] at hr
      obtain ⟨r1, h1, it1, hn, l, hl, hr⟩ := hr
      cases hr
      obtain ⟨hat, hrun⟩ := h.body hK hF hO S h2 (hb vs x (by simp)) h1
      rcases dNext_spec nd (look := look vs.length) hat.lt hat.wf hat.fits hat.ahead with ⟨it', g1, g2⟩ | ⟨g1, _⟩
      · rw [hn] at g1; cases g1
        obtain ⟨L1, L2, e1, e2, e3⟩ := hat.moved g2
        obtain ⟨i1, i2, i3, i4⟩ := ih e2 (fun vs e he => hb vs e (by rw [e1]; simp [he])) hl
        refine ⟨?_, ?_, ?_, i4⟩
        · rw [e1]
          exact (i1.trans (List.sublist_append_right L1 L2)).cons_cons x
        · intro e he hne
          simp only [trace, delsOf_append]
          rw [List.mem_cons, not_or] at hne
          rcases List.mem_cons.1 he with rfl | he
          · exact absurd rfl hne.1
          · rw [e1, List.mem_append] at he
            rcases he with he | he
            · have := e3 e he
              rw [List.mem_append] at this ⊢
              rw [List.mem_append]; tauto
            · have := i2 e he hne.2
              simp only [List.mem_append] at this ⊢
              tauto
        · simp only [trace]
          rw [DK.runFrom_append, hrun]
          exact i3
      · rw [hn] at g1; cases g1

/-- The head of a sublist that still holds the head. -/
theorem head_sublist {a : Edge} {l m : List Edge} (hs : m.Sublist (a :: l)) (hn : (a :: l).Nodup) (ha : a ∈ m) :
    m.head? = some a := by
  cases hs with
  | cons _ h => exact absurd (h.subset ha) (List.nodup_cons.1 hn).1
  | cons_cons _ h => rfl

/-- If only visited edges are deleted, the assertion holds. -/
theorem At.no_assert {n : Nat} {E0 : Nat → List Edge} {D vs : List Edge} {r : Heap K × HG} {it : DIt} {x : Edge}
    {L : List Edge} (h : At n E0 D r it (x :: L)) (hD : ∀ d ∈ D, d ∈ vs ++ [x]) (hn : (vs ++ x :: L).Nodup) :
    ¬ AssertFails r.1 it := by
  rintro ⟨hd, j, a, t, l, f1, ht, hc, hne⟩
  have hp := firstP_mem f1
  have hst := h.fits.start hd j a hp
  rw [hst] at hc; cases hc
  obtain ⟨t', c1, c2, c3⟩ := h.cells a (List.mem_of_getElem? hp)
  rw [ht] at c1; cases c1
  rcases h.ahead with ⟨i, b, l1, e1, e2, e3, e4, e5, e6⟩ | ⟨e1, _⟩ | ⟨_, e1⟩
  · injection e6 with e6 e7
    subst e6
    have hff : ∃ j', DK.firstFrom it.v.cur 0 = some (j', E0 a) := by
      rcases h.fits.first 0 with ⟨g1, _⟩ | ⟨j', a', l', g1, g2, g3, g4⟩
      · rw [f1] at g1; cases g1
      · rw [f1] at g1; cases g1
        rw [hst] at g4; cases g4
        exact ⟨j, g2⟩
    obtain ⟨j', hff⟩ := hff
    obtain ⟨_, g2, g3⟩ := DK.firstFrom_some hff
    cases hE : E0 a with
    | nil => rw [hE] at g2; exact e5 _ (List.mem_of_getElem? g2) rfl
    | cons c tl =>
      rw [hE] at hff g3 c2 c3 hne
      have hL : L = l1 ++ (c :: tl ++ DK.rest it.v.cur (j' + 1)) := by rw [e7, ← g3]; rfl
      have hnd : (c :: tl).Nodup := by
        have : (c :: tl).Sublist (vs ++ x :: L) := by
          rw [hL]
          refine List.Sublist.trans ?_ (List.sublist_append_right _ _)
          refine List.Sublist.trans ?_ (List.sublist_cons_self _ _)
          refine List.Sublist.trans ?_ (List.sublist_append_right _ _)
          exact List.sublist_append_left _ _
        exact hn.sublist this
      have hcD : c ∉ D := by
        intro hh
        have hv := hD c hh
        have hcL : c ∈ L := by rw [hL]; simp
        rw [List.nodup_append] at hn
        rcases List.mem_append.1 hv with hv | hv
        · exact hn.2.2 c hv c (by simp [hcL]) rfl
        · rw [List.mem_singleton] at hv
          subst hv
          exact (List.nodup_cons.1 hn.2.1).1 hcL
      rw [head_sublist c2 hnd (c3 c (by simp) hcD)] at hne
      exact hne rfl
  · omega
  · cases e1

/-- The loop ends, if the calls of the body return: with assertions compiled out, or if the body deletes only edges it has
been shown. -/
theorem dLoop_total (hK : K.Lawful) (hF : K.ForcedPure) (hO : K.KeepsOrder) {nd : Bool} (S : Sizing) {n : Nat} (h2 : 2 ≤ n)
    {body : List Edge → Edge → List Op} (look : Nat → Edge → Bool) {E0 : Nat → List Edge}
    (hnd : nd = true ∨ VisitedOnly body) :
    ∀ (f : Nat) {vs D L : List Edge} {r : Heap K × HG} {it : DIt}, At n E0 D r it L → (∀ d ∈ D, VisitedOnly body → d ∈ vs) →
      (vs ++ L).Nodup → (∀ vs, ∀ e ∈ L, OpsInRange n (body vs e)) →
      (∀ l e, (l ++ [e]).Sublist L → ∃ g, DK.runFrom S (view r.1 r.2) (trace body vs (l ++ [e])) = .ok g) →
      L.length < f → ∃ res, dLoop nd S body look f vs r it = .ok res := by
  intro f
  induction f with
  | zero => intro vs D L r it _ _ _ _ _ hf; omega
  | succ f ih =>
    intro vs D L r it h hD hn hb hrun hf
    cases L with
    | nil => exact ⟨([], r), by rw [dLoop, EAt_nil h.ahead]⟩
    | cons x L =>
      rw [dLoop, EAt_cons h.wf h.ahead h.nomax]
      obtain ⟨g, hg⟩ := hrun [] x (by simp)
      simp only [List.nil_append, trace, List.append_nil] at hg
      have h0 := runFrom_rel S (body vs x) h.own
      rw [hg] at h0
      obtain ⟨r1, hr1, _, _⟩ := h0.ok_right
      obtain ⟨hat, hrv⟩ := h.body hK hF hO S h2 (hb vs x (by simp)) hr1
      have hD1 : VisitedOnly body → ∀ d ∈ D ++ delsOf (body vs x), d ∈ vs ++ [x] := by
        intro hv d hd
        rcases List.mem_append.1 hd with hd | hd
        · simp [hD d hd hv]
        · exact hv vs x d hd
      have hstep : ∃ it', dNext nd (look vs.length) r1.1 it = .ok it' ∧ Moved E0 r1.1 it it' L := by
        rcases dNext_spec nd (look := look vs.length) hat.lt hat.wf hat.fits hat.ahead with g1 | ⟨_, g2, g3⟩
        · exact g1
        · rcases hnd with hnd | hnd
          · rw [hnd] at g2; cases g2
          · exact absurd g3 (hat.no_assert (hD1 hnd) hn)
      obtain ⟨it1, hn1, hm⟩ := hstep
      obtain ⟨L1, L2, e1, e2, _⟩ := hat.moved hm
      have hnod : (vs ++ [x] ++ L2).Nodup := by
        refine hn.sublist ?_
        rw [e1, List.append_assoc]
        exact (List.Sublist.cons_cons x (List.sublist_append_right L1 L2)).append_left vs
      obtain ⟨res, hres⟩ := ih (vs := vs ++ [x]) e2 (fun d hd hv => hD1 hv d hd) hnod
        (fun vs e he => hb vs e (by rw [e1]; simp [he])) (by
          intro l e hl
          obtain ⟨g', hg'⟩ := hrun (x :: l) e (by
            rw [e1, List.cons_append]
            exact (hl.trans (List.sublist_append_right L1 L2)).cons_cons x)
          simp only [List.cons_append, trace] at hg'
          rw [DK.runFrom_append, hrv] at hg'
          exact ⟨g', hg'⟩) (by
          have : L2.length ≤ L.length := by rw [e1]; simp
          simp only [List.length_cons] at hf; omega)
      refine ⟨(x :: res.1, res.2), ?_⟩
      simp only
      rw [hr1, Res.ok_bind, hn1, Res.ok_bind, hres, Res.ok_bind]

/-- `edge_begin()`. -/
theorem dBegin_at {h : Heap K} {o : HG} {n : Nat} (ho : Own h o.ps) {G : Edge → Prop} (ht : DK.Track (view h o) G)
    (hnv : o.nv = n) (h0 : n ≠ 0) (hne : (view h o).NoEmptyTree)
    (hs : DK.maxEdge ∉ DK.slots o.c0 ++ DK.flat K (view h o).ks) :
    ∃ it E0, dBegin h o = .ok it ∧ At n E0 [] (h, o) it (DK.slots o.c0 ++ DK.flat K (view h o).ks) := by
  obtain ⟨v, b1, b2, b3, b4⟩ := ht.inv.toWInv.eBegin_at (by show o.nv ≠ 0; omega) hne
  let E0 : Nat → List Edge := fun a => match h[a]? with | some t => K.edges t | none => []
  have hE : ∀ {a t}, h[a]? = some t → E0 a = K.edges t := by intro a t hh; simp only [E0, hh]
  have hcur : ∀ (j : Nat), v.cur[j]? = (o.ps[j]?).map (fun p => p.map E0) := by
    intro j
    rw [b3]
    show ((vw h o.ps).map (Option.map K.edges))[j]? = _
    unfold vw
    rw [List.map_map, List.getElem?_map]
    cases hp : o.ps[j]? with
    | none => rfl
    | some p =>
      cases p with
      | none => rfl
      | some a =>
        have hal := ho.lt a (List.mem_of_getElem? hp)
        have hh : h[a]? = some h[a] := List.getElem?_eq_getElem hal
        simp [hE hh, hh]
  refine ⟨⟨v, o.ps⟩, E0, by unfold dBegin; rw [b1, Res.ok_bind], ⟨ho, ⟨G, ht⟩, hnv, ?_, ?_, b4, hs, ?_⟩⟩
  · show v.c0.WF
    rw [b2]; exact ht.inv.toWInv.c0wf
  · refine ⟨?_, ?_, ?_, ?_⟩
    · show v.cur.length = o.ps.length
      rw [b3]
      show ((vw h o.ps).map _).length = _
      simp [vw]
    · intro j a hj
      refine ⟨E0 a, ?_, fun e he => he⟩
      show v.cur[j]? = _
      rw [hcur j]; simp only at hj; rw [hj]; rfl
    · intro j hj
      show v.cur[j]? = _
      rw [hcur j]; simp only at hj; rw [hj]; rfl
    · intro _ j a hj
      show v.cur[j]? = _
      rw [hcur j]; simp only at hj; rw [hj]; rfl
  · intro a ha
    have hal := ho.lt a ha
    have hh : h[a]? = some h[a] := List.getElem?_eq_getElem hal
    refine ⟨h[a], hh, ?_, ?_⟩
    · rw [hE hh]
    · intro e he _; rw [hE hh] at he; exact he

end HG

open HG

/-! ## Deletions after a settled history -/

theorem mem_prune (ops : List Op) (ds : List Edge) (e : Edge) :
    specMem (ops ++ ds.map Op.del) e ↔ specMem ops e ∧ e ∉ ds := by
  rw [specMem_iff_specRun, specMem_iff_specRun]
  induction ds using List.reverseRecOn with
  | nil => simp
  | append_singleton ds a ih =>
    rw [List.map_append, ← List.append_assoc]
    simp only [List.map_cons, List.map_nil]
    rw [specRun_concat]
    show e ≠ a ∧ _ ↔ _
    rw [ih]
    simp only [List.mem_append, List.mem_singleton, not_or]
    tauto

/-- The edges still present are those not named. -/
theorem prune_length (ops : List Op) (ds : List Edge) :
    (Win.run (ops ++ ds.map Op.del)).present.length = ((Win.run ops).present.filter (fun e => decide (e ∉ ds))).length := by
  obtain ⟨p1, p2⟩ := Win.present_spec (ops ++ ds.map Op.del)
  obtain ⟨q1, q2⟩ := Win.present_spec ops
  refine length_eq_of_mem_iff p1 (q1.filter _) fun e => ?_
  rw [p2, mem_prune, List.mem_filter, q2, decide_eq_true_iff]

/-- Naming fewer edges keeps deletions rare. -/
theorem Win.Rare.mono {ops : List Op} {ds ds' : List Edge} (hs : ∀ e ∈ ds', e ∈ ds)
    (h : (Win.run (ops ++ ds.map Op.del)).Rare) : (Win.run (ops ++ ds'.map Op.del)).Rare := by
  have h1 := (prune_counts (Win.run ops) ds).2
  have h2 := (prune_counts (Win.run ops) ds').2
  have e1 : ∀ l : List Edge, (l.map Op.del).foldl Win.step (Win.run ops) = Win.run (ops ++ l.map Op.del) := by
    intro l; simp [Win.run]
  rw [e1] at h1 h2
  have h3 : (Win.run (ops ++ ds.map Op.del)).present.length ≤ (Win.run (ops ++ ds'.map Op.del)).present.length := by
    rw [prune_length, prune_length]
    refine (List.Sublist.length_le ?_)
    refine List.monotone_filter_right _ fun e he => ?_
    simp only [decide_eq_true_eq] at he ⊢
    exact fun hh => he (hs e hh)
  unfold Win.Rare at h ⊢
  omega

theorem InRange.ne_max {n : Nat} (hn : n ≤ 9999999) {e : Edge} (h : InRange n e) : e ≠ DK.maxEdge := by
  rintro rfl
  have := h.1
  simp only [DK.maxEdge] at this
  omega

/-- The loop's start in the graph of a settled history. -/
theorem settled_at (hK : K.Lawful) (hF : K.ForcedPure) (hM : K.MarksOne) {S : Sizing} {X : Nat} (hS : S.Calibrated X)
    {n B M : Nat} (hn : 2 ≤ n) (h9 : n ≤ 9999999) (hMx : M ≤ X) (hB : ∀ k, k ≤ M → S.maxsz (max n k) 0 ≤ B)
    {ops : List Op} (hs : Settled n B M ops) :
    ∃ r : Heap K × HG, HG.run K S n ops = .ok r ∧ DK.run K S n ops = .ok (view r.1 r.2) ∧
      ∃ it E0 L, dBegin r.1 r.2 = .ok it ∧ At n E0 [] r it L ∧ L.Nodup ∧ (∀ e, e ∈ L ↔ specMem ops e) ∧
        L.length = (Win.run ops).present.length := by
  obtain ⟨g, h1, h2, h3, _⟩ := settled_run hK hF hM hS hn hMx hB hs
  have h0 := HG.run_rel (K := K) S n ops
  rw [h1] at h0
  obtain ⟨r, hr, rfl, ho⟩ := h0.ok_right
  have hops : OpsInRange n ops := by
    intro o hmem
    obtain ⟨a, b, rfl⟩ := List.append_of_mem hmem
    exact (hs a o b rfl).1
  obtain ⟨ht, hnv, _⟩ := DK.run_track hK hF S hops h1
  have hL : DK.slots r.2.c0 ++ DK.flat K (view r.1 r.2).ks = (view r.1 r.2).edgesOf := by
    unfold DK.edgesOf
    rw [← DK.slots_eq_live ht.inv.toWInv.c0wf h3.c0m]; rfl
  have hmem : ∀ e, e ∈ (view r.1 r.2).edgesOf ↔ specMem ops e := fun e => by
    rw [h2.ex.mem, (Win.present_spec ops).2]
  obtain ⟨it, E0, b1, b2⟩ := dBegin_at ho ht hnv (by omega) h3.ne (by
    rw [hL]
    intro hh
    exact (InRange.ne_max h9 (by rw [← hnv]; exact ht.inv.range _ hh)) rfl)
  refine ⟨r, hr, h1, it, E0, _, b1, b2, ?_, ?_, ?_⟩
  · rw [hL]; exact ht.inv.nodup
  · rw [hL]; exact hmem
  · rw [hL]
    exact length_eq_of_mem_iff ht.inv.nodup h2.nd h2.ex.mem

/-! ## C92 for any calibrated thresholds -/

/-- What a loop that ends has done, whatever its body inserted and deleted. -/
theorem loop_done (hK : K.Lawful) (hF : K.ForcedPure) (hM : K.MarksOne) (hO : K.KeepsOrder) {S : Sizing} {X : Nat}
    (hS : S.Calibrated X) {n B M : Nat} (hn : 2 ≤ n) (h9 : n ≤ 9999999) (hMx : M ≤ X)
    (hB : ∀ k, k ≤ M → S.maxsz (max n k) 0 ≤ B) {ops : List Op} (hs : Settled n B M ops)
    {body : List Edge → Edge → List Op} (hb : ∀ vs e, specMem ops e → OpsInRange n (body vs e)) :
    ∃ r : Heap K × HG, HG.run K S n ops = .ok r ∧ ∀ nd look fuel res, dFor nd S body look fuel r = .ok res →
      res.1.Nodup ∧ (∀ e ∈ res.1, specMem ops e) ∧
      (∀ e, specMem ops e → e ∉ res.1 → e ∈ delsOf (trace body [] res.1)) ∧
      DK.run K S n (ops ++ trace body [] res.1) = .ok (view res.2.1 res.2.2) ∧ Own res.2.1 res.2.2.ps := by
  obtain ⟨r, hr, hd, it, E0, L, c1, c2, c3, c4, _⟩ := settled_at hK hF hM hS hn h9 hMx hB hs
  refine ⟨r, hr, fun nd look fuel res hres => ?_⟩
  unfold dFor at hres
  rw [c1, Res.ok_bind] at hres
  obtain ⟨d1, d2, d3, d4⟩ := dLoop_ok hK hF hO nd S hn look fuel c2 (fun vs e he => hb vs e ((c4 e).1 he)) hres
  refine ⟨c3.sublist d1, fun e he => (c4 e).1 (d1.subset he), fun e he hne => ?_, ?_, d4⟩
  · simpa using d2 e ((c4 e).2 he) hne
  · rw [DK.run_append, hd]; exact d3

/-- A body that only deletes. -/
def delBody (db : List Edge → Edge → List Edge) : List Edge → Edge → List Op := fun vs e => (db vs e).map Op.del

/-- The edges named by `delBody` when the loop visits `l`. -/
def named (db : List Edge → Edge → List Edge) : List Edge → List Edge → List Edge
  | _, [] => []
  | vs, e :: l => db vs e ++ named db (vs ++ [e]) l

theorem trace_delBody (db : List Edge → Edge → List Edge) : ∀ (l vs : List Edge),
    trace (delBody db) vs l = (named db vs l).map Op.del := by
  intro l
  induction l with
  | nil => intro vs; rfl
  | cons e l ih => intro vs; simp [trace, named, delBody, ih]

theorem delsOf_map_del (l : List Edge) : delsOf (l.map Op.del) = l := by
  unfold delsOf
  rw [List.filterMap_map]
  exact List.filterMap_some

theorem named_sub {db : List Edge → Edge → List Edge} {ds : List Edge} : ∀ (l : List Edge) (vs : List Edge),
    (∀ vs, ∀ e ∈ l, ∀ d ∈ db vs e, d ∈ ds) → ∀ d ∈ named db vs l, d ∈ ds := by
  intro l
  induction l with
  | nil => intro vs _ d hd; cases hd
  | cons e l ih =>
    intro vs h d hd
    simp only [named, List.mem_append] at hd
    rcases hd with hd | hd
    · exact h vs e (by simp) d hd
    · exact ih _ (fun vs e' he' => h vs e' (by simp [he'])) d hd

/-- The loop with a body that deletes: it ends, and this is what it leaves. -/
theorem loop_prunes (hK : K.Lawful) (hF : K.ForcedPure) (hM : K.MarksOne) (hO : K.KeepsOrder) {S : Sizing} {X : Nat}
    (hS : S.Calibrated X) {n B M : Nat} (hn : 2 ≤ n) (h9 : n ≤ 9999999) (hMx : M ≤ X)
    (hB : ∀ k, k ≤ M → S.maxsz (max n k) 0 ≤ B) {ops : List Op} (hs : Settled n B M ops) {ds : List Edge}
    (hd : ∀ e ∈ ds, InRange n e) (hrare : (Win.run (ops ++ ds.map Op.del)).Rare)
    {db : List Edge → Edge → List Edge} (hb : ∀ vs e, specMem ops e → ∀ d ∈ db vs e, d ∈ ds) {nd : Bool}
    (hnd : nd = true ∨ ∀ vs e, ∀ d ∈ db vs e, d ∈ vs ++ [e]) :
    ∃ r : Heap K × HG, HG.run K S n ops = .ok r ∧ ∀ look fuel, (Win.run ops).present.length < fuel →
      ∃ l r', dFor nd S (delBody db) look fuel r = .ok (l, r') ∧ l.Nodup ∧ (∀ e ∈ l, specMem ops e) ∧
        (∀ e, specMem ops e → e ∈ l ∨ e ∈ named db [] l) ∧
        ((∀ vs e, ∀ d ∈ db vs e, d ∈ vs ++ [e]) → ∀ e, specMem ops e → e ∈ l) ∧
        Own r'.1 r'.2.ps ∧
        Shows (view r'.1 r'.2) n (fun e => specMem ops e ∧ e ∉ named db [] l)
          ((Win.run ops).present.filter (fun e => decide (e ∉ named db [] l))).length := by
  obtain ⟨r, hr, hdk, it, E0, L, c1, c2, c3, c4, c5⟩ := settled_at hK hF hM hS hn h9 hMx hB hs
  have hrange : ∀ vs, ∀ e ∈ L, OpsInRange n (delBody db vs e) := by
    intro vs e he o ho
    obtain ⟨d, hd1, rfl⟩ := List.mem_map.1 ho
    exact hd d (hb vs e ((c4 e).1 he) d hd1)
  have hvo : (∀ vs e, ∀ d ∈ db vs e, d ∈ vs ++ [e]) → VisitedOnly (delBody db) := by
    intro h vs e d hdd
    rw [delBody, delsOf_map_del] at hdd
    exact h vs e d hdd
  have hrun : ∀ l, (∀ e ∈ l, e ∈ L) → ∃ g, DK.run K S n (ops ++ (named db [] l).map Op.del) = .ok g ∧
      Shows g n (specMem (ops ++ (named db [] l).map Op.del)) (Win.run (ops ++ (named db [] l).map Op.del)).present.length := by
    intro l hl
    have hsub : ∀ d ∈ named db [] l, d ∈ ds := named_sub l [] fun vs e he => hb vs e ((c4 e).1 (hl e he))
    exact settled_prune hK hF hM hS hn hMx hB hs (fun e he => hd e (hsub e he)) (hrare.mono hsub)
  refine ⟨r, hr, fun look fuel hf => ?_⟩
  obtain ⟨⟨l, r'⟩, hres⟩ := dLoop_total hK hF hO (nd := nd) S hn look (hnd.imp id hvo) fuel c2 (vs := []) (by simp)
    (by simpa using c3) hrange (by
      intro l e hl
      obtain ⟨g, hg, _⟩ := hrun (l ++ [e]) (fun x hx => hl.subset hx)
      rw [DK.run_append, hdk] at hg
      exact ⟨g, by rw [trace_delBody]; exact hg⟩) (by rw [c5]; exact hf)
  obtain ⟨d1, d2, d3, d4⟩ := dLoop_ok hK hF hO nd S hn look fuel c2 hrange hres
  simp only at d1 d2 d3 d4
  rw [trace_delBody] at d2 d3
  rw [delsOf_map_del] at d2
  obtain ⟨g, hg, hsh⟩ := hrun l (fun x hx => d1.subset hx)
  rw [DK.run_append, hdk] at hg
  have hgv : g = view r'.1 r'.2 := by
    have : DK.runFrom S (view r.1 r.2) ((named db [] l).map Op.del) = .ok g := hg
    rw [d3] at this
    exact (Res.ok.inj this).symm
  subst hgv
  rw [prune_length] at hsh
  have hfun : specMem (ops ++ (named db [] l).map Op.del) = fun e => specMem ops e ∧ e ∉ named db [] l := by
    funext e; exact propext (mem_prune ops _ e)
  rw [hfun] at hsh
  have hall : ∀ e, specMem ops e → e ∈ l ∨ e ∈ named db [] l := by
    intro e he
    by_cases hel : e ∈ l
    · exact Or.inl hel
    · exact Or.inr (by simpa using d2 e ((c4 e).2 he) hel)
  refine ⟨l, r', by unfold dFor; rw [c1, Res.ok_bind]; exact hres, c3.sublist d1, fun e he => (c4 e).1 (d1.subset he), hall,
    fun hv e he => ?_, d4, hsh⟩
  rcases hall e he with h | h
  · exact h
  · have := delsOf_trace (hvo hv) l [] e (by rw [trace_delBody, delsOf_map_del]; exact h)
    simpa using this

/-- A user's view of a graph whose trees are shared: `get_number_nodes`, `get_number_edges`, `contains`,
`list_neighbour`. -/
structure HShows (r : Heap K × HG) (n : Nat) (E : Edge → Prop) (m : Nat) : Prop where
  nodes : r.2.nv = n
  edges : r.2.nTotal = m
  contains : ∀ e, InRange n e → ∃ b, HG.contains r.1 r.2 e = .ok b ∧ (b = true ↔ E e)
  neighbours : ∀ x, x < n → ∃ l, HG.listNeighbour r.1 r.2 x = .ok l ∧ l.Nodup ∧ ∀ y, y ∈ l ↔ E (x, y)

theorem Shows.heap {r : Heap K × HG} (ho : Own r.1 r.2.ps) {n : Nat} {E : Edge → Prop} {m : Nat}
    (h : Shows (view r.1 r.2) n E m) : HShows r n E m := by
  refine ⟨h.nodes, h.edges, fun e he => ?_, fun x hx => ?_⟩
  · rw [contains_eq ho]; exact h.contains e he
  · rw [listNeighbour_eq ho]; exact h.neighbours x hx

/-! ## C92: the formulas of the code over the reals -/

/-- C92: a loop over the edges whose body deletes edges (at most one for every six that remain) ends, in both builds, and
visits every edge that was there when it began, except edges deleted meanwhile; stated for graphs built by insertions.
False with assertions (`C92_refuted`). -/
def C92_Full (S : Sizing) : Prop :=
  ∀ (K : K2Impl), K.Lawful → K.ForcedPure → K.MarksOne → K.KeepsOrder → ∀ (n : Nat), 2 ≤ n → n ≤ 9999999 →
  ∀ (es ds : List Edge), (∀ e ∈ es, InRange n e) → (∀ e ∈ ds, InRange n e) → es.length ≤ 2 ^ 64 →
  6 * (es.toFinset ∩ ds.toFinset).card ≤ (es.toFinset \ ds.toFinset).card →
  ∀ (db : List Edge → Edge → List Edge), (∀ vs e, ∀ d ∈ db vs e, d ∈ ds) → ∀ (nd : Bool) (look : Nat → Edge → Bool),
  ∃ r : Heap K × HG, HG.run K S n (es.map Op.add) = .ok r ∧ ∀ fuel, es.length < fuel →
    ∃ l r', dFor nd S (delBody db) look fuel r = .ok (l, r') ∧ ∀ e ∈ es, e ∈ l ∨ e ∈ named db [] l

/-- C92, on every settled history and for every body that inserts and deletes: a loop that ends has visited no edge twice,
only edges that were there when it began, and every one of those except some that the body deleted; the graph it leaves is
the one the same calls would have left without a loop, so `contains` answers for the calls made (up to the pair `(1,1)`, see
C01).
Missing: that the loop ends; false with assertions (`C92_refuted`). -/
theorem C92_visits_partial (hK : K.Lawful) (hF : K.ForcedPure) (hM : K.MarksOne) (hO : K.KeepsOrder) {n B M : Nat}
    (hn : 2 ≤ n) (h9 : n ≤ 9999999) (hMx : M ≤ 2 ^ 64) (hB : ∀ k, k ≤ M → realSizing.maxsz (max n k) 0 ≤ B)
    {ops : List Op} (hs : Settled n B M ops) {body : List Edge → Edge → List Op}
    (hb : ∀ vs e, specMem ops e → OpsInRange n (body vs e)) :
    ∃ r : Heap K × HG, HG.run K realSizing n ops = .ok r ∧ ∀ nd look fuel l r',
      dFor nd realSizing body look fuel r = .ok (l, r') →
      l.Nodup ∧ (∀ e ∈ l, specMem ops e) ∧
      (∀ e, specMem ops e → e ∉ l → Op.del e ∈ trace body [] l) ∧
      DK.run K realSizing n (ops ++ trace body [] l) = .ok (view r'.1 r'.2) ∧
      ∀ e, InRange n e → e ≠ (1, 1) → ∃ b, HG.contains r'.1 r'.2 e = .ok b ∧
        (b = true ↔ specMem (ops ++ trace body [] l) e) := by
  obtain ⟨r, hr, h⟩ := loop_done hK hF hM hO realSizing_calibrated hn h9 hMx hB hs hb
  refine ⟨r, hr, fun nd look fuel l r' hres => ?_⟩
  obtain ⟨a1, a2, a3, a4, a5⟩ := h nd look fuel _ hres
  refine ⟨a1, a2, fun e he hne => ?_, a4, fun e he h11 => ?_⟩
  · obtain ⟨o, ho1, ho2⟩ := List.mem_filterMap.1 (a3 e he hne)
    cases o with
    | add _ => cases ho2
    | del d => cases ho2; exact ho1
  · have hin : OpsInRange n (ops ++ trace body [] l) := by
      intro o ho
      rcases List.mem_append.1 ho with ho | ho
      · obtain ⟨a, b, rfl⟩ := List.append_of_mem ho
        exact (hs a o b rfl).1
      · have key : ∀ (l vs : List Edge), (∀ e ∈ l, specMem ops e) → OpsInRange n (trace body vs l) := by
          intro l
          induction l with
          | nil => intro vs _ o ho; cases ho
          | cons e l ih =>
            intro vs hl o ho
            rcases List.mem_append.1 ho with ho | ho
            · exact hb vs e (hl e (by simp)) o ho
            · exact ih _ (fun e' he' => hl e' (by simp [he'])) o ho
        exact key l [] a2 o ho
    obtain ⟨t, hnv, _⟩ := DK.run_track hK hF realSizing hin a4
    refine ⟨_, by rw [contains_eq a5, t.inv.contains_eq hK (by rw [hnv]; exact he)], ?_⟩
    rw [decide_eq_true_iff, t.mem e h11, specMem_iff_specRun]

/-- C92, assertions compiled out: after a settled history a loop whose body deletes any edges, visited or not, at most one
for every six that remain, ends, visits no edge twice, and visits every edge that was there when it began unless the body
deleted it; every query afterwards agrees with the set of edges. -/
theorem C92_ndebug_partial (hK : K.Lawful) (hF : K.ForcedPure) (hM : K.MarksOne) (hO : K.KeepsOrder) {n B M : Nat}
    (hn : 2 ≤ n) (h9 : n ≤ 9999999) (hMx : M ≤ 2 ^ 64) (hB : ∀ k, k ≤ M → realSizing.maxsz (max n k) 0 ≤ B)
    {ops : List Op} (hs : Settled n B M ops) {ds : List Edge} (hd : ∀ e ∈ ds, InRange n e)
    (hrare : (Win.run (ops ++ ds.map Op.del)).Rare) {db : List Edge → Edge → List Edge}
    (hb : ∀ vs e, specMem ops e → ∀ d ∈ db vs e, d ∈ ds) :
    ∃ r : Heap K × HG, HG.run K realSizing n ops = .ok r ∧ ∀ look fuel, (Win.run ops).present.length < fuel →
      ∃ l r', dFor true realSizing (delBody db) look fuel r = .ok (l, r') ∧ l.Nodup ∧ (∀ e ∈ l, specMem ops e) ∧
        (∀ e, specMem ops e → e ∈ l ∨ e ∈ named db [] l) ∧
        HShows r' n (fun e => specMem ops e ∧ e ∉ named db [] l)
          ((Win.run ops).present.filter (fun e => decide (e ∉ named db [] l))).length := by
  obtain ⟨r, hr, h⟩ := loop_prunes hK hF hM hO realSizing_calibrated hn h9 hMx hB hs hd hrare hb (nd := true) (Or.inl rfl)
  refine ⟨r, hr, fun look fuel hf => ?_⟩
  obtain ⟨l, r', a1, a2, a3, a4, _, a6, a7⟩ := h look fuel hf
  exact ⟨l, r', a1, a2, a3, a4, a7.heap a6⟩

/-- C92_visited_partial for any calibrated thresholds. -/
theorem visited_loop (hK : K.Lawful) (hF : K.ForcedPure) (hM : K.MarksOne) (hO : K.KeepsOrder) {S : Sizing} {X : Nat}
    (hS : S.Calibrated X) {n B M : Nat} (hn : 2 ≤ n) (h9 : n ≤ 9999999) (hMx : M ≤ X) (hB : ∀ k, k ≤ M → S.maxsz (max n k) 0 ≤ B)
    {ops : List Op} (hs : Settled n B M ops) {ds : List Edge} (hd : ∀ e ∈ ds, InRange n e)
    (hrare : (Win.run (ops ++ ds.map Op.del)).Rare) {db : List Edge → Edge → List Edge}
    (hb : ∀ vs e, specMem ops e → ∀ d ∈ db vs e, d ∈ ds) (hv : ∀ vs e, ∀ d ∈ db vs e, d = e ∨ d ∈ vs) (nd : Bool) :
    ∃ r : Heap K × HG, HG.run K S n ops = .ok r ∧ ∀ look fuel, (Win.run ops).present.length < fuel →
      ∃ l r', dFor nd S (delBody db) look fuel r = .ok (l, r') ∧ l.Nodup ∧ (∀ e, e ∈ l ↔ specMem ops e) ∧
        HShows r' n (fun e => specMem ops e ∧ e ∉ named db [] l)
          ((Win.run ops).present.filter (fun e => decide (e ∉ named db [] l))).length := by
  have hv' : ∀ vs e, ∀ d ∈ db vs e, d ∈ vs ++ [e] := by
    intro vs e d hd
    rcases hv vs e d hd with h | h <;> simp [h]
  obtain ⟨r, hr, h⟩ := loop_prunes hK hF hM hO hS hn h9 hMx hB hs hd hrare hb (nd := nd) (Or.inr hv')
  refine ⟨r, hr, fun look fuel hf => ?_⟩
  obtain ⟨l, r', a1, a2, a3, _, a5, a6, a7⟩ := h look fuel hf
  exact ⟨l, r', a1, a2, fun e => ⟨a3 e, a5 hv' e⟩, a7.heap a6⟩

/-- C92, both builds: the same when the body deletes only edges the loop has shown already; then every edge is visited
exactly once. -/
theorem C92_visited_partial (hK : K.Lawful) (hF : K.ForcedPure) (hM : K.MarksOne) (hO : K.KeepsOrder) {n B M : Nat}
    (hn : 2 ≤ n) (h9 : n ≤ 9999999) (hMx : M ≤ 2 ^ 64) (hB : ∀ k, k ≤ M → realSizing.maxsz (max n k) 0 ≤ B)
    {ops : List Op} (hs : Settled n B M ops) {ds : List Edge} (hd : ∀ e ∈ ds, InRange n e)
    (hrare : (Win.run (ops ++ ds.map Op.del)).Rare) {db : List Edge → Edge → List Edge}
    (hb : ∀ vs e, specMem ops e → ∀ d ∈ db vs e, d ∈ ds) (hv : ∀ vs e, ∀ d ∈ db vs e, d = e ∨ d ∈ vs) (nd : Bool) :
    ∃ r : Heap K × HG, HG.run K realSizing n ops = .ok r ∧ ∀ look fuel, (Win.run ops).present.length < fuel →
      ∃ l r', dFor nd realSizing (delBody db) look fuel r = .ok (l, r') ∧ l.Nodup ∧ (∀ e, e ∈ l ↔ specMem ops e) ∧
        HShows r' n (fun e => specMem ops e ∧ e ∉ named db [] l)
          ((Win.run ops).present.filter (fun e => decide (e ∉ named db [] l))).length :=
  visited_loop hK hF hM hO realSizing_calibrated hn h9 hMx hB hs hd hrare hb hv nd

theorem named_if (p : Edge → Bool) : ∀ (l vs : List Edge),
    named (fun _ e => if p e then [e] else []) vs l = l.filter p := by
  intro l
  induction l with
  | nil => intro vs; rfl
  | cons e l ih =>
    intro vs
    rw [named, ih, List.filter_cons]
    cases p e <;> simp

/-- Deleting old edges, in any order, keeps a history settled. -/
theorem Settled.prune {n B M : Nat} {ops : List Op} (hs : Settled n B M ops) {ds : List Edge} (hd : ∀ e ∈ ds, InRange n e)
    (hr : (Win.run (ops ++ ds.map Op.del)).Rare) (ho : ∀ e ∈ ds, (Win.run ops).Old B e)
    (hM : (Win.run ops).present.length ≤ M) : Settled n B M (ops ++ ds.map Op.del) := by
  have hlog : ∀ (l : List Edge) (w : Win), ((l.map Op.del).foldl Win.step w).log = w.log := by
    intro l
    induction l with
    | nil => intro w; rfl
    | cons e l ih =>
      intro w
      simp only [List.map_cons, List.foldl_cons]
      rw [ih]
      simp only [Win.step]
      split <;> rfl
  have hrun : ∀ l : List Edge, Win.run (ops ++ l.map Op.del) = (l.map Op.del).foldl Win.step (Win.run ops) := by
    intro l; simp [Win.run]
  induction ds using List.reverseRecOn with
  | nil => simpa using hs
  | append_singleton ds e ih =>
    have ih' := ih (fun x hx => hd x (by simp [hx])) (hr.mono (by intro x hx; simp [hx])) (fun x hx => ho x (by simp [hx]))
    rw [List.map_append, ← List.append_assoc]
    intro pre o post hh
    rcases List.eq_nil_or_concat post with hp | ⟨post', q, hp⟩
    · subst hp
      have h1 : ops ++ ds.map Op.del = pre ∧ Op.del e = o := by
        have := List.append_inj' (s₁ := ops ++ ds.map Op.del) (t₁ := [Op.del e]) (s₂ := pre) (t₂ := [o]) hh rfl
        exact ⟨this.1, by simpa using this.2⟩
      obtain ⟨rfl, rfl⟩ := h1
      have hle : (Win.run (ops ++ ds.map Op.del ++ [Op.del e])).present.length ≤ M := by
        have := prune_length ops (ds ++ [e])
        rw [List.map_append, ← List.append_assoc] at this
        rw [show [Op.del e] = [e].map Op.del from rfl, this]
        exact le_trans (List.length_filter_le _ _) hM
      refine ⟨hd e (by simp), hle, ?_⟩
      rintro e' ⟨⟩
      rw [List.map_append, ← List.append_assoc] at hr
      refine ⟨hr, fun hp => ?_⟩
      have hlog' : (Win.run (ops ++ ds.map Op.del)).log = (Win.run ops).log := by rw [hrun, hlog]
      rw [hlog']
      refine ho e (by simp) ?_
      rw [(Win.present_spec _).2, mem_prune] at hp
      rw [(Win.present_spec _).2]; exact hp.1
    · subst hp
      have : ops ++ ds.map Op.del = pre ++ o :: post' := by
        have := List.append_inj' (s₁ := ops ++ ds.map Op.del) (t₁ := [Op.del e]) (s₂ := pre ++ o :: post') (t₂ := [q])
          (by rw [show [Op.del e] = [e].map Op.del from rfl, hh]; simp) rfl
        exact this.1
      exact ih' pre o post' this

/-- C92_goes_on_partial for any calibrated thresholds. -/
theorem goes_on_loop (hK : K.Lawful) (hF : K.ForcedPure) (hM : K.MarksOne) (hO : K.KeepsOrder) {S : Sizing} {X : Nat}
    (hS : S.Calibrated X) {n B M : Nat} (hn : 2 ≤ n) (h9 : n ≤ 9999999) (hMx : M ≤ X) (hB : ∀ k, k ≤ M → S.maxsz (max n k) 0 ≤ B)
    {ops : List Op} (hs : Settled n B M ops) {p : Edge → Bool}
    (hrare : (Win.run (ops ++ ((Win.run ops).present.filter p).map Op.del)).Rare)
    (hold : ∀ e, specMem ops e → p e = true → (Win.run ops).Old B e) (nd : Bool) :
    ∃ r : Heap K × HG, HG.run K S n ops = .ok r ∧ ∀ look fuel, (Win.run ops).present.length < fuel →
      ∃ l r', dFor nd S (delBody fun _ e => if p e then [e] else []) look fuel r = .ok (l, r') ∧ l.Nodup ∧
        (∀ e, e ∈ l ↔ specMem ops e) ∧ Settled n B M (ops ++ (l.filter p).map Op.del) ∧
        (view r'.1 r'.2).iface.Faithful (fun e => specMem ops e ∧ p e = false) ∧
        (view r'.1 r'.2).iface.Algorithms n (fun e => specMem ops e ∧ p e = false) ∧
        ∀ more, Settled n B M (ops ++ (l.filter p).map Op.del ++ more) →
          ∃ r'', HG.runFrom S r' more = .ok r'' ∧
            HShows r'' n (specMem (ops ++ (l.filter p).map Op.del ++ more))
              (Win.run (ops ++ (l.filter p).map Op.del ++ more)).present.length := by
  obtain ⟨q1, q2⟩ := Win.present_spec ops
  have hrg : ∀ e, specMem ops e → InRange n e := by
    intro e he
    obtain ⟨a, b, hab, _⟩ := he
    exact (hs a (.add e) b hab).1
  have hsub : ∀ l : List Edge, (∀ e ∈ l, specMem ops e) → ∀ e ∈ l.filter p, e ∈ (Win.run ops).present.filter p := by
    intro l hl e he
    rw [List.mem_filter] at he ⊢
    exact ⟨(q2 e).2 (hl e he.1), he.2⟩
  obtain ⟨gs, t1, t2, _, t4⟩ := settled_run hK hF hM hS hn hMx hB hs
  obtain ⟨r, hr, h⟩ := loop_prunes hK hF hM hO hS hn h9 hMx hB hs
    (ds := (Win.run ops).present.filter p) (fun e he => hrg e ((q2 e).1 (List.mem_of_mem_filter he))) hrare
    (db := fun _ e => if p e then [e] else []) (by
      intro vs e he d hd
      split at hd
      · rw [List.mem_singleton] at hd
        subst hd
        exact List.mem_filter.2 ⟨(q2 d).2 he, by assumption⟩
      · cases hd) (nd := nd) (Or.inr (by
      intro vs e d hd
      split at hd
      · rw [List.mem_singleton] at hd; simp [hd]
      · cases hd))
  obtain ⟨r2, hr2, hdone⟩ := loop_done hK hF hM hO hS hn h9 hMx hB hs
    (body := delBody fun _ e => if p e then [e] else []) (by
      intro vs e he o ho
      obtain ⟨d, hd, rfl⟩ := List.mem_map.1 ho
      simp only at hd
      split at hd
      · rw [List.mem_singleton] at hd; subst hd; exact hrg _ he
      · cases hd)
  rw [hr] at hr2; cases hr2
  refine ⟨r, hr, fun look fuel hf => ?_⟩
  obtain ⟨l, r', a1, a2, a3, _, a5, a6, _⟩ := h look fuel hf
  obtain ⟨_, _, _, d4, _⟩ := hdone nd look fuel _ a1
  simp only at d4
  rw [trace_delBody, named_if] at d4
  have hl : ∀ e, e ∈ l ↔ specMem ops e := fun e => ⟨a3 e, a5 (by
    intro vs e d hd
    split at hd
    · rw [List.mem_singleton] at hd; simp [hd]
    · cases hd) e⟩
  have hset : Settled n B M (ops ++ (l.filter p).map Op.del) := by
    refine hs.prune (fun e he => hrg e ((hl e).1 (List.mem_of_mem_filter he))) (hrare.mono (hsub l a3)) ?_ t4
    intro e he
    rw [List.mem_filter] at he
    exact hold e ((hl e).1 he.1) he.2
  have hfun : specMem (ops ++ (l.filter p).map Op.del) = fun e => specMem ops e ∧ p e = false := by
    funext e
    rw [eq_iff_iff, mem_prune, List.mem_filter, hl]
    constructor
    · rintro ⟨h1, h2⟩; exact ⟨h1, by simpa [h1] using h2⟩
    · rintro ⟨h1, h2⟩; exact ⟨h1, by simp [h2]⟩
  obtain ⟨g1, u1, _, u3⟩ := settled_shows hK hF hM hS hn hMx hB hset
  rw [d4] at u1; cases u1
  obtain ⟨u3, u4⟩ := u3 h9
  rw [hfun] at u3 u4
  refine ⟨l, r', a1, a2, hl, hset, u3, u4, fun more hmore => ?_⟩
  obtain ⟨g2, v1, v2, _⟩ := settled_shows hK hF hM hS hn hMx hB hmore
  rw [DK.run_append, d4] at v1
  have v1' : DK.runFrom S (view r'.1 r'.2) more = .ok g2 := v1
  have h0 := runFrom_rel S more a6
  rw [v1'] at h0
  obtain ⟨r'', w1, rfl, w3⟩ := h0.ok_right
  exact ⟨r'', w1, v2.heap w3⟩

/-- C92, the loop `for (e : edges) if (p(e)) del_edge(e)` in the middle of a history, both builds: if no selected edge is
among the last inserted ones (as in C87) and deletions stay rare, the loop visits every edge once, and the history with the
deletions is settled again, so the program can go on, with further calls and loops. -/
theorem C92_goes_on_partial (hK : K.Lawful) (hF : K.ForcedPure) (hM : K.MarksOne) (hO : K.KeepsOrder) {n B M : Nat}
    (hn : 2 ≤ n) (h9 : n ≤ 9999999) (hMx : M ≤ 2 ^ 64) (hB : ∀ k, k ≤ M → realSizing.maxsz (max n k) 0 ≤ B)
    {ops : List Op} (hs : Settled n B M ops) {p : Edge → Bool}
    (hrare : (Win.run (ops ++ ((Win.run ops).present.filter p).map Op.del)).Rare)
    (hold : ∀ e, specMem ops e → p e = true → (Win.run ops).Old B e) (nd : Bool) :
    ∃ r : Heap K × HG, HG.run K realSizing n ops = .ok r ∧ ∀ look fuel, (Win.run ops).present.length < fuel →
      ∃ l r', dFor nd realSizing (delBody fun _ e => if p e then [e] else []) look fuel r = .ok (l, r') ∧ l.Nodup ∧
        (∀ e, e ∈ l ↔ specMem ops e) ∧ Settled n B M (ops ++ (l.filter p).map Op.del) ∧
        (view r'.1 r'.2).iface.Faithful (fun e => specMem ops e ∧ p e = false) ∧
        (view r'.1 r'.2).iface.Algorithms n (fun e => specMem ops e ∧ p e = false) ∧
        ∀ more, Settled n B M (ops ++ (l.filter p).map Op.del ++ more) →
          ∃ r'', HG.runFrom realSizing r' more = .ok r'' ∧
            HShows r'' n (specMem (ops ++ (l.filter p).map Op.del ++ more))
              (Win.run (ops ++ (l.filter p).map Op.del ++ more)).present.length :=
  goes_on_loop hK hF hM hO realSizing_calibrated hn h9 hMx hB hs hrare hold nd

/-- The loop `for e: if p(e) del_edge(e)` for any calibrated thresholds (C92). -/
theorem filter_loop (hK : K.Lawful) (hF : K.ForcedPure) (hM : K.MarksOne) (hO : K.KeepsOrder) {S : Sizing} {X : Nat}
    (hS : S.Calibrated X) {n : Nat} (hn : 2 ≤ n) (h9 : n ≤ 9999999) {es : List Edge} (hes : ∀ e ∈ es, InRange n e) (hsz : es.toFinset.card ≤ X)
    (p : Edge → Bool) (hp : 7 * (es.toFinset.filter (fun e => p e = true)).card ≤ es.toFinset.card) (nd : Bool) :
    ∃ r : Heap K × HG, HG.run K S n (es.map Op.add) = .ok r ∧ ∀ look fuel, es.toFinset.card < fuel →
      ∃ l r', dFor nd S (delBody fun _ e => if p e then [e] else []) look fuel r = .ok (l, r') ∧ l.Nodup ∧
        (∀ e, e ∈ l ↔ e ∈ es) ∧
        HShows r' n (fun e => e ∈ es ∧ p e = false) (es.toFinset.filter (fun e => p e = false)).card := by
  have hB : ∀ k, k ≤ X → S.maxsz (max n k) 0 ≤
      (Finset.range (X + 1)).sup (fun k => S.maxsz (max n k) 0) := by
    intro k hk
    exact Finset.le_sup (f := fun k => S.maxsz (max n k) 0) (Finset.mem_range.2 (by omega))
  obtain ⟨q1, q2⟩ := Win.present_spec (es.map Op.add)
  have hmem : ∀ e, specMem (es.map Op.add) e ↔ e ∈ es := by
    intro e
    have := mem_build_prune es [] e
    simpa using this
  have hset : (Win.run (es.map Op.add)).present.toFinset = es.toFinset := by
    ext e; rw [List.mem_toFinset, q2, hmem, List.mem_toFinset]
  have hlen : (Win.run (es.map Op.add)).present.length = es.toFinset.card := by
    rw [← hset, List.toFinset_card_of_nodup q1]
  have hflen : ∀ l : List Edge, (∀ e, e ∈ l ↔ e ∈ es) →
      ((Win.run (es.map Op.add)).present.filter (fun e => decide (e ∉ l.filter p))).length =
        (es.toFinset.filter (fun e => p e = false)).card := by
    intro l hl
    rw [← List.toFinset_card_of_nodup (q1.filter _)]
    congr 1
    ext e
    simp only [List.mem_toFinset, List.mem_filter, q2, hmem, Finset.mem_filter, decide_eq_true_eq, hl, not_and]
    constructor
    · rintro ⟨h1, h2⟩; exact ⟨h1, by simpa using h2 h1⟩
    · rintro ⟨h1, h2⟩; exact ⟨h1, fun _ => by simp [h2]⟩
  have hdels0 : (Win.run (es.map Op.add)).dels = 0 := by
    clear * -
    induction es using List.reverseRecOn with
    | nil => rfl
    | append_singleton es e ih =>
      rw [List.map_append]
      simp only [List.map_cons, List.map_nil]
      rw [Win.run_snoc]
      simp only [Win.step]
      split <;> exact ih
  have hrare : (Win.run (es.map Op.add ++ (es.filter p).map Op.del)).Rare := by
    have hcnt := (prune_counts (Win.run (es.map Op.add)) (es.filter p)).2
    have hrun : Win.run (es.map Op.add ++ (es.filter p).map Op.del) =
        ((es.filter p).map Op.del).foldl Win.step (Win.run (es.map Op.add)) := by simp [Win.run]
    rw [← hrun, hdels0, hlen] at hcnt
    have hpl := prune_length (es.map Op.add) (es.filter p)
    rw [hflen es (fun e => Iff.rfl)] at hpl
    have hsum := Finset.card_filter_add_card_filter_not (s := es.toFinset) (fun e => p e = true)
    simp only [Bool.not_eq_true] at hsum
    unfold Win.Rare
    omega
  obtain ⟨r, hr, h⟩ := visited_loop hK hF hM hO hS hn h9 (le_refl _) hB
    (settled_inserts (B := (Finset.range (X + 1)).sup (fun k => S.maxsz (max n k) 0)) hes hsz)
    (ds := es.filter p) (fun e he => hes e (List.mem_of_mem_filter he)) hrare
    (db := fun _ e => if p e then [e] else []) (by
      intro vs e he d hd
      split at hd
      · rw [List.mem_singleton] at hd
        subst hd
        exact List.mem_filter.2 ⟨(hmem d).1 he, by assumption⟩
      · cases hd) (by
      intro vs e d hd
      split at hd
      · exact Or.inl (List.mem_singleton.1 hd)
      · cases hd) nd
  refine ⟨r, hr, fun look fuel hf => ?_⟩
  obtain ⟨l, r', a1, a2, a3, a4⟩ := h look fuel (by rw [hlen]; exact hf)
  have hl : ∀ e, e ∈ l ↔ e ∈ es := fun e => by rw [a3, hmem]
  refine ⟨l, r', a1, a2, hl, ?_⟩
  rw [named_if, hflen l hl] at a4
  have hfun : (fun e => specMem (es.map Op.add) e ∧ e ∉ l.filter p) = fun e => e ∈ es ∧ p e = false := by
    funext e
    rw [hmem, List.mem_filter, hl, eq_iff_iff]
    constructor
    · rintro ⟨h1, h2⟩; exact ⟨h1, by simpa [h1] using h2⟩
    · rintro ⟨h1, h2⟩; exact ⟨h1, by simp [h2]⟩
  rw [hfun] at a4
  exact a4

/-- C92 for the plainest loop, both builds: build a graph, then `for (e : edges) if (p(e)) del_edge(e)`, where at most one
edge in seven satisfies `p`.  The loop visits every edge exactly once and leaves exactly the edges that do not satisfy
`p`. -/
theorem C92_filter_partial (hK : K.Lawful) (hF : K.ForcedPure) (hM : K.MarksOne) (hO : K.KeepsOrder) {n : Nat}
    (hn : 2 ≤ n) (h9 : n ≤ 9999999) {es : List Edge} (hes : ∀ e ∈ es, InRange n e) (hsz : es.toFinset.card ≤ 2 ^ 64)
    (p : Edge → Bool) (hp : 7 * (es.toFinset.filter (fun e => p e = true)).card ≤ es.toFinset.card) (nd : Bool) :
    ∃ r : Heap K × HG, HG.run K realSizing n (es.map Op.add) = .ok r ∧ ∀ look fuel, es.toFinset.card < fuel →
      ∃ l r', dFor nd realSizing (delBody fun _ e => if p e then [e] else []) look fuel r = .ok (l, r') ∧ l.Nodup ∧
        (∀ e, e ∈ l ↔ e ∈ es) ∧
        HShows r' n (fun e => e ∈ es ∧ p e = false) (es.toFinset.filter (fun e => p e = false)).card :=
  filter_loop hK hF hM hO realSizing_calibrated hn h9 hes hsz p hp nd

/-! ## The assumption on `erase` can be met -/

theorem refK2_keepsOrder : refK2.KeepsOrder := by
  intro n t e _ _
  show (refK2.edges (refK2.erase t e).2).Sublist t.live
  by_cases h : e ∈ t.live
  · simp only [refK2, h, if_true]
    exact List.filter_sublist
  · simp only [refK2, h, if_false]
    exact List.Sublist.refl _

theorem bitK2_keepsOrder {k : Nat} {H : Nat → Nat} (hT : MT.Tall k H) : (bitK2 k H).KeepsOrder := by
  intro n t e hv he
  show ((t.erase k e).2.edges k).Sublist (t.edges k)
  by_cases ha : t.adj k e = true
  · obtain ⟨t', h1, h2, h3⟩ := MT.erase_spec hT hv he ha
    rw [h1]
    unfold MT.edges
    simp only
    rw [h2.nv, (show t.bt.nv = n from hv.nv)]
    have : (cells n).filter (fun e => t'.adj k e) = (cells n).filter (fun e => t'.adj k e && t.adj k e) := by
      apply List.filter_congr
      intro x hx
      have := h3 x (mem_cells.1 hx)
      rw [Bool.eq_iff_iff, Bool.and_eq_true, this]
      tauto
    rw [this]
    refine List.monotone_filter_right _ fun x hx => ?_
    rw [Bool.and_eq_true] at hx
    exact hx.2
  · unfold MT.erase
    rw [if_neg ha]

/-! ## Instances -/

/-- Seven edges: one in the buffer, two in the first occupied level. -/
def wEdgeDel : List Edge := [(0,1),(0,2),(0,3),(0,4),(1,0),(1,1),(1,2)]

/-- The outcome of a loop, and what it visited. -/
def loopOut (nd : Bool) (S : Sizing) (n : Nat) (es : List Edge) (db : List Edge → Edge → List Edge)
    (look : Nat → Edge → Bool) (fuel : Nat) : Res (List Edge) := do
  let r ← HG.run refK2 S n (es.map Op.add)
  let x ← dFor nd S (delBody db) look fuel r
  .ok x.1

theorem wEdgeDel_aborts : loopOut false realSizing 5 wEdgeDel (fun _ _ => [(1,0)]) (fun _ _ => false) 8 = .abort := by
  rw [realSizing_eq_hyb]; decide +kernel

/-- With assertions: while the loop is in the buffer, the body deletes the edge with which the first occupied level begins;
the assertion of line 126 fails. -/
theorem C92_refuted : ¬ C92_Full realSizing := by
  intro h
  obtain ⟨r, hr, hl⟩ := h refK2 refK2_lawful refK2_forcedPure refK2_marksOne refK2_keepsOrder 5 (by decide) (by decide)
    wEdgeDel [(1,0)] (by decide) (by decide) (by decide) (by decide) (fun _ _ => [(1,0)]) (by simp) false (fun _ _ => false)
  obtain ⟨l, r', h1, _⟩ := hl 8 (by decide)
  have := wEdgeDel_aborts
  unfold loopOut at this
  rw [hr, Res.ok_bind, h1, Res.ok_bind] at this
  cases this

/-- The same loop without assertions visits all seven edges, the deleted one too. -/
theorem wEdgeDel_shown : loopOut true realSizing 5 wEdgeDel (fun _ _ => [(1,0)]) (fun _ _ => true) 8 =
    .ok [(1,2),(1,0),(1,1),(0,3),(0,4),(0,1),(0,2)] := by
  rw [realSizing_eq_hyb]; decide +kernel

/-- An edge deleted before the loop reaches it may be skipped. -/
theorem wEdgeDel_skipped : loopOut true realSizing 5 wEdgeDel (fun _ _ => [(0,4)]) (fun _ _ => true) 8 =
    .ok [(1,2),(1,0),(1,1),(0,3),(0,1),(0,2)] := by
  rw [realSizing_eq_hyb]; decide +kernel

/-- `C92_filter_partial` meets a case: deleting one of the seven edges while looping. -/
example : ∃ r : Heap refK2 × HG, HG.run refK2 realSizing 5 (wEdgeDel.map Op.add) = .ok r ∧ ∀ look fuel,
    wEdgeDel.toFinset.card < fuel →
    ∃ l r', dFor false realSizing (delBody fun _ e => if (fun e => decide (e = (0,3))) e then [e] else []) look fuel r =
        .ok (l, r') ∧ l.Nodup ∧ (∀ e, e ∈ l ↔ e ∈ wEdgeDel) ∧
      HShows r' 5 (fun e => e ∈ wEdgeDel ∧ (fun e => decide (e = (0,3))) e = false)
        (wEdgeDel.toFinset.filter (fun e => (fun e => decide (e = (0,3))) e = false)).card :=
  C92_filter_partial refK2_lawful refK2_forcedPure refK2_marksOne refK2_keepsOrder (by decide) (by decide) (by decide)
    (by decide) _ (by decide) false

/-- Fourteen insertions on 4 vertices, of which the loop deletes the first two. -/
def wGoesOn : List Op := [(0, 0), (0, 1), (0, 2), (0, 3), (1, 0), (1, 1), (1, 2), (1, 3), (2, 0), (2, 1), (2, 2), (2, 3),
  (3, 0), (3, 1)].map Op.add

/-- `C92_goes_on_partial` meets this case. -/
example : ∃ r : Heap refK2 × HG, HG.run refK2 realSizing 4 wGoesOn = .ok r ∧ ∀ look, ∃ l r',
    dFor false realSizing (delBody fun _ e => if decide (e.1 = 0 ∧ e.2 ≤ 1) then [e] else []) look 20 r = .ok (l, r') ∧
    (∀ e, e ∈ l ↔ specMem wGoesOn e) ∧ Settled 4 2 16 (wGoesOn ++ (l.filter fun e => decide (e.1 = 0 ∧ e.2 ≤ 1)).map Op.del) := by
  obtain ⟨r, hr, h⟩ := C92_goes_on_partial refK2_lawful refK2_forcedPure refK2_marksOne refK2_keepsOrder (n := 4) (B := 2)
    (M := 16) (ops := wGoesOn) (p := fun e => decide (e.1 = 0 ∧ e.2 ≤ 1)) (by norm_num) (by norm_num) (by norm_num) tab_cap
    (settled_of_check (by decide +kernel)) (by unfold Win.Rare; decide +kernel) (by
      intro e _ he _
      have he := of_decide_eq_true he
      obtain ⟨x, y⟩ := e
      obtain ⟨h1, h2⟩ := he
      simp only at h1 h2
      subst h1
      have : y = 0 ∨ y = 1 := by omega
      rcases this with rfl | rfl <;> decide +kernel) false
  refine ⟨r, hr, fun look => ?_⟩
  obtain ⟨l, r', a1, _, a3, a4, _⟩ := h look 20 (by decide +kernel)
  exact ⟨l, r', a1, a3, a4⟩

end DK2
