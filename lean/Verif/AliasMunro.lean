import Verif.Alias
import Verif.MunroProofs
/-!
# `DKtree_delay_munro` with its pointers (`include/dktree/DKtree_delay_.hpp`, `union_support.hpp`)

The trees live in a heap; `k_collection` and `union_support.tmp` hold addresses, and `union_support.k_collection` is a
pointer to the array of *some* object: that of the object that constructed it (DKtree_delay_.hpp:140).  The implicit copy
constructor copies these members, so the `union_support` of a copy still points to the array of the original.
-/

namespace DK2

/-- The values behind pointers. -/
def lv (h : List BT) (ps : List (Option Nat)) : List (Option BT) := ps.map (fun p => p.bind (fun a => h[a]?))

/-- Reading every tree of an array of pointers. -/
def loadAll (h : List BT) : List (Option Nat) → Res (List (Option BT))
  | [] => .ok []
  | none :: ps => do
    let r ← loadAll h ps
    .ok (none :: r)
  | some a :: ps => do
    let t ← rd h a
    let r ← loadAll h ps
    .ok (some t :: r)

namespace US

/-- As `scan` (union_support.hpp:89-94, 202-206), on pointers. -/
def scanP (ps : List (Option Nat)) : Nat → Nat → Nat
  | 0, i => i
  | f + 1, i =>
    match ps[i]? with
    | some (some _) => i
    | _ => scanP ps f (i + 1)

/-- As `next` (union_support.hpp:198-220): `result()` changes `*tmp` in place, the pointer `tmp` is stored in the array. -/
def nextP (H : Nat → Nat) (tp : Nat) (h : List BT) (ps : List (Option Nat)) (s : US) :
    Res (List BT × List (Option Nat) × US × Bool) := do
  let ps ← wr ps s.ki none
  let s ← result H s
  let h ← wr h tp s.tmp
  let j := scanP ps (s.maxI + 1 - s.ki) s.ki
  if s.maxI < j then do
    let ps ← wr ps s.maxI (some tp)
    .ok (h, ps, { s with ki := j, finish := true }, false)
  else if s.times = s.iter then .ok (h, ps, { initl { s with ki := j } with times := 0 }, false)
  else .ok (h, ps, initl { s with ki := j }, true)

/-- `unionOperation()` (union_support.hpp:120-227) on the array `ps` the support points to; `*tmp` is read from the
heap (the field `tmp` of the record is not used).  Simplified: the assertion of 124 is not distinguished from the undefined
behaviour that follows it. -/
def unionOpP (b : Nat) (H : Nat → Nat) (tp : Nat) :
    Nat → List BT → List (Option Nat) → US → Res (List BT × List (Option Nat) × US)
  | 0, _, _, _ => .diverge
  | f + 1, h, ps, s =>
    if s.finish then .ok (h, ps, s)
    else do
      let o ← rd ps s.ki
      let a ← use o
      let B ← rd h a
      let t ← rd h tp
      let maxH := max t.h B.h
      let q ← s.front
      let s ← drain b maxH B (s.iter - s.times) (begin' b maxH B q { s with tmp := t })
      if s.Q = [] then do
        let r ← nextP H tp h ps s
        if r.2.2.2 then unionOpP b H tp f r.1 r.2.1 r.2.2.1 else .ok (r.1, r.2.1, r.2.2.1)
      else .ok (h, ps, { s with times := 0, finish := false })

/-- The constructor (union_support.hpp:64-118) once `*tmp` is at address `tp`; `ks` are the trees behind `ps`. -/
def createP (tmp : BT) (tp : Nat) (c0 : Nat) (ks : List (Option BT)) (ps : List (Option Nat)) (i : Nat) :
    Res (List (Option Nat) × US) :=
  if c0 = 0 then .ub
  else
    let it := iterSize (totalIter ks i tmp) c0
    let j := scanP ps (i + 1) 0
    if j ≤ i then .ok (ps, initl ⟨[], [], [], 0, 0, 0, 0, 0, tmp, j, it, 0, false, i⟩)
    else do
      let ps ← wr ps i (some tp)
      .ok (ps, ⟨[], [], [], 0, 0, 0, 0, 0, tmp, RS, it, 0, true, i⟩)

end US

/-- `DKtree_delay_munro` (DKtree_delay_.hpp:51-65, 90-91) as `DKM`, with pointers: `ps` is `k_collection`, `tp` is
`union_support.tmp`, `home` is the object whose array `union_support.k_collection` points to (not read while there is
nothing to merge). -/
structure HM where
  maxR : Nat
  nv : Nat
  nTotal : Nat
  c0 : C0
  ps : List (Option Nat)
  copy : List (Option BT)
  tmpEdge : Edge
  us : US
  tp : Option Nat
  home : Nat

/-- Objects and trees of a program. -/
structure MWorld where
  heap : List BT
  objs : List HM

namespace HM

/-- The object as a value. -/
def view (h : List BT) (o : HM) : DKM :=
  ⟨o.maxR, o.nv, o.nTotal, o.c0, lv h o.ps, o.copy, o.tmpEdge,
    { o.us with tmp := ((o.tp.bind (fun a => h[a]?)).getD ⟨[], [], 0, 0, 0⟩) }⟩

/-- The object built by `DKtree_delay_munro(n_vertices)` (DKtree_delay_.hpp:69-76). -/
def create (P : MPar) (n : Nat) : Res HM :=
  if n = 1 then .ub
  else .ok ⟨0, n, 0, C0.new P.S n, List.replicate RS none, List.replicate RS none, (0, 0), DKM.idleUS, none, 0⟩

/-- `contains(x,y)` (DKtree_delay_.hpp:146-163). -/
def contains (P : MPar) (h : List BT) (o : HM) (e : Edge) : Res Bool := do
  let b ← o.c0.contains e
  if b then .ok true
  else if o.us.finish then do
    let ks ← loadAll h o.ps
    DKM.anyAdj P.k e ks
  else if o.tmpEdge = e then .ok true
  else DKM.anyAdj P.k e o.copy

/-- `list_neighbour(x)` (DKtree_delay_.hpp:167-189). -/
def listNeighbour (P : MPar) (h : List BT) (o : HM) (x : Nat) : Res (List Nat) := do
  let l ← o.c0.listNeighbours x
  if o.us.finish then do
    let ks ← loadAll h o.ps
    .ok (l ++ (if o.tmpEdge.1 = x then [o.tmpEdge.2] else []) ++ DKM.allNeigh P.k x ks)
  else .ok (l ++ DKM.allNeigh P.k x o.copy)

end HM

namespace MWorld

/-- `union_support.unionOperation()` of object `x`: it works on the array of object `home`. -/
def unionStep (P : MPar) (w : MWorld) (x : Nat) : Res MWorld := do
  let o ← rd w.objs x
  if o.us.finish then .ok w
  else do
    let tp ← use o.tp
    let hm ← rd w.objs o.home
    let r ← US.unionOpP (P.k * P.k) P.H tp (hm.ps.length + 1) w.heap hm.ps o.us
    let objs ← wr w.objs o.home { hm with ps := r.2.1 }
    let o ← rd objs x
    .ok ⟨r.1, objs.set x { o with us := r.2.2 }⟩

/-- The flush branch of `add_edge` (DKtree_delay_.hpp:107-143): `make_shared` (union_support.hpp:69) allocates `tmp`. -/
def flush (P : MPar) (w : MWorld) (x : Nat) (o : HM) (e : Edge) : Res MWorld := do
  let ks ← loadAll w.heap o.ps
  match DKM.selectLevel P.S (max o.nv o.nTotal) ks 0 (P.S.maxsz (max o.nv o.nTotal) 0) with
  | none => .throws
  | some i => do
    let conv ← o.c0.converted
    let c ← o.c0.clean
    let tmp := BT.encode P.k (P.H o.nv) o.nv (conv ++ [e])
    let r ← US.createP tmp w.heap.length (conv ++ [e]).length ks o.ps i
    let w ← unionStep P ⟨w.heap ++ [tmp],
      w.objs.set x ⟨max i o.maxR, o.nv, o.nTotal, c, r.1, ks, e, r.2, some w.heap.length, x⟩⟩ x
    let o ← rd w.objs x
    .ok { w with objs := w.objs.set x { o with nTotal := o.nTotal + 1 } }

/-- `add_edge(x,y)` of object `x` (DKtree_delay_.hpp:93-144). -/
def addEdge (P : MPar) (w : MWorld) (x : Nat) (e : Edge) : Res MWorld := do
  let w ← unionStep P w x
  let o ← rd w.objs x
  let b ← o.contains P w.heap e
  if b then .ok w
  else if o.c0.size < P.S.maxsz (max o.nv o.nTotal) 0 then do
    let c ← o.c0.insert P.S e o.nTotal
    .ok { w with objs := w.objs.set x { o with c0 := c, nTotal := o.nTotal + 1 } }
  else if o.us.finish || P.nd then flush P w x o e
  else .abort

/-- One user call on object `x`; `del_edge` (DKtree_delay_.hpp:165) has an empty body. -/
def call (P : MPar) (w : MWorld) (x : Nat) : Op → Res MWorld
  | .add e => w.addEdge P x e
  | .del _ => do
    let _ ← rd w.objs x
    .ok w

end MWorld

/-! ## Lists of pointers -/

theorem lv_length (h : List BT) (ps : List (Option Nat)) : (lv h ps).length = ps.length := by simp [lv]

theorem lv_get (h : List BT) (ps : List (Option Nat)) (i : Nat) :
    (lv h ps)[i]? = (ps[i]?).map (fun p => p.bind (fun a => h[a]?)) := by simp [lv]

theorem lv_set_none (h : List BT) (ps : List (Option Nat)) (i : Nat) : lv h (ps.set i none) = (lv h ps).set i none := by
  simp [lv, List.map_set]

theorem lv_set (h : List BT) {ps : List (Option Nat)} {i a : Nat} {t : BT} (ht : h[a]? = some t) :
    lv h (ps.set i (some a)) = (lv h ps).set i (some t) := by
  simp [lv, List.map_set, ht]

theorem lv_congr {h h' : List BT} {ps : List (Option Nat)} (hs : ∀ a, some a ∈ ps → h'[a]? = h[a]?) :
    lv h' ps = lv h ps := by
  unfold lv
  refine List.map_congr_left fun p hp => ?_
  cases p with
  | none => rfl
  | some a => exact hs a hp

/-- All pointers of a list are valid. -/
def Valid (h : List BT) (ps : List (Option Nat)) : Prop := ∀ a, some a ∈ ps → a < h.length

theorem loadAll_eq {h : List BT} : ∀ {ps : List (Option Nat)}, Valid h ps → loadAll h ps = .ok (lv h ps)
  | [], _ => rfl
  | none :: ps, hv => by
    unfold loadAll
    rw [loadAll_eq (fun a ha => hv a (List.mem_cons_of_mem _ ha))]
    rfl
  | some a :: ps, hv => by
    unfold loadAll
    have ha := hv a (by simp)
    rw [rd_of (List.getElem?_eq_getElem ha), Res.ok_bind, loadAll_eq (fun a ha => hv a (List.mem_cons_of_mem _ ha))]
    simp [lv, ha]

theorem Valid.set {h : List BT} {ps : List (Option Nat)} (hv : Valid h ps) (i : Nat) {a : Nat} (ha : a < h.length) :
    Valid h (ps.set i (some a)) := by
  intro b hb
  rcases List.mem_or_eq_of_mem_set hb with hb | hb
  · exact hv b hb
  · cases hb; exact ha

theorem Valid.set_none {h : List BT} {ps : List (Option Nat)} (hv : Valid h ps) (i : Nat) : Valid h (ps.set i none) := by
  intro b hb
  rcases List.mem_or_eq_of_mem_set hb with hb | hb
  · exact hv b hb
  · cases hb

namespace US

theorem scanP_eq {h : List BT} {ps : List (Option Nat)} (hv : Valid h ps) : ∀ f i, scanP ps f i = scan (lv h ps) f i := by
  intro f
  induction f with
  | zero => intro i; rfl
  | succ f ih =>
    intro i
    unfold scanP scan
    rw [lv_get, ih]
    cases hp : ps[i]? with
    | none => rfl
    | some p =>
      cases p with
      | none => rfl
      | some a =>
        have ha := hv a (List.mem_iff_getElem?.2 ⟨i, hp⟩)
        simp [ha]

theorem emit_tmp {maxH l : Nat} {bA bB : Bool} {s s' : US} (h : emit maxH l bA bB s = .ok s') :
    s'.tmp = s.tmp ∧ s'.finish = s.finish := by
  unfold emit at h
  split at h <;> split at h
  · rw [Res.bind_eq_ok] at h; obtain ⟨c, _, h⟩ := h; cases h; exact ⟨rfl, rfl⟩
  · cases h; exact ⟨rfl, rfl⟩
  · rw [Res.bind_eq_ok] at h; obtain ⟨c, _, h⟩ := h; cases h; exact ⟨rfl, rfl⟩
  · cases h; exact ⟨rfl, rfl⟩

theorem children_tmp {maxH : Nat} {B : BT} {q : Nat × Bool × Bool} (c : Nat) : ∀ {s s' : US},
    children maxH B q c s = .ok s' → s'.tmp = s.tmp ∧ s'.finish = s.finish := by
  induction c with
  | zero => intro s s' h; cases h; exact ⟨rfl, rfl⟩
  | succ c ih =>
    intro s s' h
    unfold children at h
    simp only [Res.bind_eq_ok] at h
    obtain ⟨a, _, b, _, s1, h1, h⟩ := h
    exact ⟨(ih h).1.trans (emit_tmp h1).1, (ih h).2.trans (emit_tmp h1).2⟩

theorem drain_tmp {b maxH : Nat} {B : BT} (f : Nat) : ∀ {s s' : US}, drain b maxH B f s = .ok s' →
    s'.tmp = s.tmp ∧ s'.finish = s.finish := by
  induction f with
  | zero => intro s s' h; cases h; exact ⟨rfl, rfl⟩
  | succ f ih =>
    intro s s' h
    unfold drain at h
    cases hQ : s.Q with
    | nil => rw [hQ] at h; cases h; exact ⟨rfl, rfl⟩
    | cons q qs =>
      rw [hQ] at h
      simp only [Res.bind_eq_ok] at h
      obtain ⟨s1, h1, h⟩ := h
      exact ⟨(ih h).1.trans (children_tmp _ h1).1, (ih h).2.trans (children_tmp _ h1).2⟩

theorem begin_tmp (b maxH : Nat) (B : BT) (q : Nat × Bool × Bool) (s : US) : (begin' b maxH B q s).tmp = s.tmp := by
  unfold begin'; split <;> rfl

/-- What an operation of the support leaves as it is: all trees but `*tmp`. -/
structure POk (tp : Nat) (h : List BT) (ps : List (Option Nat)) (h' : List BT) (ps' : List (Option Nat)) (s' : US) : Prop where
  len : h'.length = h.length
  same : ∀ a, a ≠ tp → h'[a]? = h[a]?
  ptr : ∀ a, some a ∈ ps' → some a ∈ ps ∨ a = tp
  free : s'.finish = false → some tp ∉ ps'

theorem nextP_rel {H : Nat → Nat} {tp : Nat} {h : List BT} {ps : List (Option Nat)} {s : US} (hv : Valid h ps)
    (ht : h[tp]? = some s.tmp) (hf : some tp ∉ ps) (hs : s.finish = false) :
    Res.Rel (fun (r : List BT × List (Option Nat) × US × Bool) q => POk tp h ps r.1 r.2.1 r.2.2.1 ∧
        q = (lv r.1 r.2.1, r.2.2.1, r.2.2.2) ∧ r.1[tp]? = some r.2.2.1.tmp ∧ (r.2.2.2 = true → r.2.2.1.finish = false) ∧
        r.2.1.length = ps.length)
      (nextP H tp h ps s) (next H (lv h ps) s) := by
  unfold nextP next
  refine Res.Rel.bind (HG.wr_rel (lv_length h ps).symm s.ki none none) ?_
  rintro ps1 ks1 ⟨hki, rfl, rfl⟩
  refine Res.Rel.bind (R := fun a b => a = b ∧ a.maxI = s.maxI ∧ a.finish = s.finish) ?_ ?_
  · unfold result
    split
    · exact .abort
    · split
      · exact .abort
      · exact .ok ⟨rfl, rfl, rfl⟩
  rintro s1 _ ⟨rfl, hm, hfin⟩
  have htl : tp < h.length := (List.getElem?_eq_some_iff.1 ht).1
  rw [wr_of htl, Res.ok_bind]
  have hf1 : some tp ∉ ps.set s.ki none := by
    intro hc
    rcases List.mem_or_eq_of_mem_set hc with hc | hc
    · exact hf hc
    · cases hc
  have hlv : lv (h.set tp s1.tmp) (ps.set s.ki none) = (lv h ps).set s.ki none := by
    rw [← lv_set_none]
    refine lv_congr fun a ha => ?_
    rw [List.getElem?_set_ne]
    rintro rfl; exact hf1 ha
  have hv1 : Valid (h.set tp s1.tmp) (ps.set s.ki none) := by
    intro a ha; rw [List.length_set]; exact hv.set_none _ a ha
  have hsame : ∀ a, a ≠ tp → (h.set tp s1.tmp)[a]? = h[a]? := fun a ha => List.getElem?_set_ne (Ne.symm ha)
  have htt : (h.set tp s1.tmp)[tp]? = some s1.tmp := List.getElem?_set_self htl
  have hptr : ∀ a, some a ∈ ps.set s.ki none → some a ∈ ps := by
    intro a ha
    rcases List.mem_or_eq_of_mem_set ha with ha | ha
    · exact ha
    · cases ha
  rw [scanP_eq hv1, hlv]
  simp only
  split
  · refine Res.Rel.bind (HG.wr_rel (by simp [lv]) s1.maxI (some tp) (some s1.tmp)) ?_
    rintro ps2 ks2 ⟨_, rfl, rfl⟩
    refine .ok ⟨⟨by simp, hsame, ?_, by simp⟩, ?_, htt, by simp, by simp⟩
    · intro a ha
      rcases List.mem_or_eq_of_mem_set ha with ha | ha
      · exact Or.inl (hptr a ha)
      · cases ha; exact Or.inr rfl
    · simp only [Prod.mk.injEq, and_true]
      rw [lv_set _ htt, hlv]
  · split
    · exact .ok ⟨⟨by simp, hsame, fun a ha => Or.inl (hptr a ha), fun _ => hf1⟩, by simp [hlv], htt, by simp, by simp⟩
    · exact .ok ⟨⟨by simp, hsame, fun a ha => Or.inl (hptr a ha), fun _ => hf1⟩, by simp [hlv], htt,
        fun _ => by simp [initl, hfin, hs], by simp⟩

/-- `unionOperation` with pointers behaves as with values if `*tmp` is no tree of the array. -/
theorem unionOpP_rel {b : Nat} {H : Nat → Nat} {tp : Nat} (f : Nat) : ∀ {h : List BT} {ps : List (Option Nat)} {s : US} {t : BT},
    Valid h ps → h[tp]? = some t → (s.finish = false → some tp ∉ ps) →
    Res.Rel (fun (r : List BT × List (Option Nat) × US) q => POk tp h ps r.1 r.2.1 r.2.2 ∧ ∃ t', r.1[tp]? = some t' ∧
        q = (lv r.1 r.2.1, { r.2.2 with tmp := t' }) ∧ r.2.1.length = ps.length)
      (unionOpP b H tp f h ps s) (unionOp b H f (lv h ps) { s with tmp := t }) := by
  induction f with
  | zero => intro h ps s t _ _ _; exact .diverge
  | succ f ih =>
    intro h ps s t hv ht hf
    unfold unionOpP unionOp
    by_cases hfin : s.finish = true
    · rw [if_pos hfin, if_pos (by simpa using hfin)]
      exact .ok ⟨⟨rfl, fun _ _ => rfl, fun _ ha => Or.inl ha, fun hc => hf hc⟩, t, ht, rfl, rfl⟩
    · have hfin' : s.finish = false := by simpa using hfin
      have hfree := hf hfin'
      rw [if_neg hfin, if_neg (by simpa using hfin)]
      simp only
      cases hp : ps[s.ki]? with
      | none =>
        have e1 : rd ps s.ki = .ub := by rw [rd, hp]
        have e2 : rd (lv h ps) s.ki = .ub := by rw [rd, lv_get, hp]; rfl
        rw [e1, e2]; exact .ub
      | some p =>
        rw [rd_of hp, rd_of (show (lv h ps)[s.ki]? = some (p.bind (fun a => h[a]?)) by rw [lv_get, hp]; rfl), Res.ok_bind,
          Res.ok_bind]
        cases p with
        | none => exact .ub
        | some a =>
          have ha := hv a (List.mem_iff_getElem?.2 ⟨_, hp⟩)
          obtain ⟨B, hB⟩ : ∃ B, h[a]? = some B := ⟨_, List.getElem?_eq_getElem ha⟩
          simp only [Option.bind_some, hB, use, Res.ok_bind, rd_of hB, rd_of ht]
          rw [show ({ s with tmp := t } : US).front = s.front from rfl]
          cases s.front with
          | throws => exact .throws
          | ub => exact .ub
          | abort => exact .abort
          | diverge => exact .diverge
          | ok q =>
            simp only [Res.ok_bind]
            cases hd : drain b (max t.h B.h) B (s.iter - s.times) (begin' b (max t.h B.h) B q { s with tmp := t }) with
            | ok z =>
              obtain ⟨hz, hzf⟩ := drain_tmp _ hd
              rw [begin_tmp] at hz
              simp only [Res.ok_bind]
              replace hzf : z.finish = false := by
                rw [hzf]; unfold begin'; split <;> exact hfin'
              split
              · refine Res.Rel.bind (nextP_rel (H := H) hv (by rw [hz]; exact ht) hfree hzf) ?_
                rintro ⟨h1, ps1, s1, c⟩ _ ⟨ok1, rfl, e1, e2, e3⟩
                simp only at ok1 e1 e2 e3 ⊢
                cases c with
                | true =>
                  simp only [if_true]
                  have hv1 : Valid h1 ps1 := by
                    intro a ha
                    rw [ok1.len]
                    rcases ok1.ptr a ha with ha | rfl
                    · exact hv a ha
                    · exact (List.getElem?_eq_some_iff.1 ht).1
                  have := ih (s := s1) hv1 e1 ok1.free
                  refine Res.Rel.mono ?_ this
                  rintro ⟨h2, ps2, s2⟩ _ ⟨ok2, t', g1, rfl, g3⟩
                  refine ⟨⟨ok2.len.trans ok1.len, fun a ha => (ok2.same a ha).trans (ok1.same a ha), ?_, ok2.free⟩, t', g1, rfl,
                    g3.trans e3⟩
                  intro a ha
                  rcases ok2.ptr a ha with ha | ha
                  · exact ok1.ptr a ha
                  · exact Or.inr ha
                | false =>
                  simp only [Bool.false_eq_true, if_false]
                  exact .ok ⟨ok1, _, e1, rfl, e3⟩
              · refine .ok ⟨⟨rfl, fun _ _ => rfl, fun _ ha => Or.inl ha, fun _ => hfree⟩, t, ht, ?_, rfl⟩
                simp only [Prod.mk.injEq, true_and]
                have : z.tmp = t := hz
                rw [← this]
            | throws => exact .throws
            | ub => exact .ub
            | abort => exact .abort
            | diverge => exact .diverge

end US

namespace MWorld
open US

/-- Objects may share trees, but nobody else points to the tree that a pending merge of an object will change, and the merge
works on the object's own array. -/
structure Apart (w : MWorld) : Prop where
  valid : ∀ (x : Nat) (o : HM), w.objs[x]? = some o → Valid w.heap o.ps ∧ ∀ a, o.tp = some a → a < w.heap.length
  pend : ∀ (x : Nat) (o : HM), w.objs[x]? = some o → o.us.finish = false → o.home = x ∧ ∃ a, o.tp = some a ∧ some a ∉ o.ps ∧
    ∀ (y : Nat) (p : HM), y ≠ x → w.objs[y]? = some p → some a ∉ p.ps ∧ p.tp ≠ some a

/-- How the object at `x` may change in a call: every other object stays, old trees that others see stay, and the new pointers
are old pointers of the object or new trees. -/
structure Chg (x : Nat) (w : MWorld) (w' : MWorld) : Prop where
  len : w'.objs.length = w.objs.length
  other : ∀ y, y ≠ x → w'.objs[y]? = w.objs[y]?
  view : ∀ y p, y ≠ x → w.objs[y]? = some p → p.view w'.heap = p.view w.heap

theorem Chg.refl (x : Nat) (w : MWorld) : Chg x w w := ⟨rfl, fun _ _ => rfl, fun _ _ _ _ => rfl⟩

theorem Chg.trans {x : Nat} {w w' w'' : MWorld} (h : Chg x w w') (h' : Chg x w' w'') : Chg x w w'' :=
  ⟨h'.len.trans h.len, fun y hy => (h'.other y hy).trans (h.other y hy), fun y p hy hp =>
    (h'.view y p hy ((h.other y hy).trans hp)).trans (h.view y p hy hp)⟩

/-- The relation between a call of the object `x` and the call of the value. -/
def After (x : Nat) (w : MWorld) (w' : MWorld) (d : DKM) : Prop :=
  w'.Apart ∧ Chg x w w' ∧ ∃ o, w'.objs[x]? = some o ∧ d = o.view w'.heap

theorem view_congr {h h' : List BT} {o : HM} (hs : ∀ a, some a ∈ o.ps → h'[a]? = h[a]?)
    (ht : ∀ a, o.tp = some a → h'[a]? = h[a]?) : o.view h' = o.view h := by
  unfold HM.view
  rw [lv_congr hs]
  cases hp : o.tp with
  | none => rfl
  | some a => simp [ht a hp]

/-- Replacing the object `x` and extending or changing the heap. -/
theorem apart_set {w : MWorld} (hw : w.Apart) {x : Nat} {o : HM} (ho : w.objs[x]? = some o) {h' : List BT} {o' : HM}
    (hlen : w.heap.length ≤ h'.length)
    (hsame : ∀ a, a < w.heap.length → (∀ y p, y ≠ x → w.objs[y]? = some p → some a ∉ p.ps ∧ p.tp ≠ some a) ∨ h'[a]? = w.heap[a]?)
    (hv : Valid h' o'.ps) (htp : ∀ a, o'.tp = some a → a < h'.length)
    (hnew : ∀ a, (some a ∈ o'.ps ∨ o'.tp = some a) → w.heap.length ≤ a ∨ some a ∈ o.ps ∨ o.tp = some a)
    (hpend : o'.us.finish = false → o'.home = x ∧ ∃ a, o'.tp = some a ∧ some a ∉ o'.ps ∧
      ∀ y p, y ≠ x → w.objs[y]? = some p → some a ∉ p.ps ∧ p.tp ≠ some a) :
    Apart ⟨h', w.objs.set x o'⟩ ∧ Chg x w ⟨h', w.objs.set x o'⟩ := by
  have hx : x < w.objs.length := (List.getElem?_eq_some_iff.1 ho).1
  have hget : ∀ (y : Nat) p, (w.objs.set x o')[y]? = some p → (y = x ∧ p = o') ∨ (y ≠ x ∧ w.objs[y]? = some p) := by
    intro y p hp
    by_cases hy : y = x
    · subst hy
      rw [List.getElem?_set_self hx] at hp
      cases hp; exact Or.inl ⟨rfl, rfl⟩
    · rw [List.getElem?_set_ne (Ne.symm hy)] at hp
      exact Or.inr ⟨hy, hp⟩
  refine ⟨⟨?_, ?_⟩, ?_⟩
  · intro y p hp
    rcases hget y p hp with ⟨rfl, rfl⟩ | ⟨hy, hp⟩
    · exact ⟨hv, htp⟩
    · obtain ⟨h1, h2⟩ := hw.valid y p hp
      exact ⟨fun a ha => lt_of_lt_of_le (h1 a ha) hlen, fun a ha => lt_of_lt_of_le (h2 a ha) hlen⟩
  · intro y p hp hf
    rcases hget y p hp with ⟨rfl, rfl⟩ | ⟨hy, hp⟩
    · obtain ⟨h1, a, h2, h3, h4⟩ := hpend hf
      refine ⟨h1, a, h2, h3, fun z q hz hq => ?_⟩
      rcases hget z q hq with ⟨rfl, rfl⟩ | ⟨_, hq⟩
      · exact absurd rfl hz
      · exact h4 z q hz hq
    · obtain ⟨h1, a, h2, h3, h4⟩ := hw.pend y p hp hf
      have hal := (hw.valid y p hp).2 a h2
      refine ⟨h1, a, h2, h3, fun z q hz hq => ?_⟩
      rcases hget z q hq with ⟨rfl, rfl⟩ | ⟨_, hq⟩
      · obtain ⟨k1, k2⟩ := h4 z o hz ho
        constructor
        · intro hc
          rcases hnew a (Or.inl hc) with hc | hc | hc
          · omega
          · exact k1 hc
          · exact k2 hc
        · intro hc
          rcases hnew a (Or.inr hc) with hc | hc | hc
          · omega
          · exact k1 hc
          · exact k2 hc
      · exact h4 z q hz hq
  · refine ⟨by simp, fun y hy => List.getElem?_set_ne (Ne.symm hy), fun y p hy hp => ?_⟩
    obtain ⟨h1, h2⟩ := hw.valid y p hp
    refine view_congr (fun a ha => ?_) (fun a ha => ?_)
    · rcases hsame a (h1 a ha) with hc | hc
      · exact absurd ha (hc y p hy hp).1
      · exact hc
    · rcases hsame a (h2 a ha) with hc | hc
      · exact absurd ha (hc y p hy hp).2
      · exact hc

theorem unionStep_rel (P : MPar) {w : MWorld} (hw : w.Apart) {x : Nat} {o : HM} (ho : w.objs[x]? = some o) :
    Res.Rel (After x w) (unionStep P w x) (DKM.unionStep P (o.view w.heap)) := by
  unfold unionStep DKM.unionStep
  rw [rd_of ho, Res.ok_bind]
  by_cases hf : o.us.finish = true
  · rw [if_pos hf]
    have : US.unionOp (P.k * P.k) P.H ((o.view w.heap).ks.length + 1) (o.view w.heap).ks (o.view w.heap).us =
        .ok ((o.view w.heap).ks, (o.view w.heap).us) := by
      unfold US.unionOp
      rw [if_pos (by simpa [HM.view] using hf)]
    rw [this, Res.ok_bind]
    exact .ok ⟨hw, Chg.refl x w, o, ho, rfl⟩
  · have hf' : o.us.finish = false := by simpa using hf
    rw [if_neg hf]
    obtain ⟨hh, a, ha, hna, hoth⟩ := hw.pend x o ho hf'
    obtain ⟨hv, hvt⟩ := hw.valid x o ho
    have hal := hvt a ha
    obtain ⟨t, ht⟩ : ∃ t, w.heap[a]? = some t := ⟨_, List.getElem?_eq_getElem hal⟩
    have hu : use o.tp = .ok a := by rw [ha]; rfl
    rw [hu, Res.ok_bind, hh, rd_of ho, Res.ok_bind]
    have hx : x < w.objs.length := (List.getElem?_eq_some_iff.1 ho).1
    have hlen : (o.view w.heap).ks.length = o.ps.length := lv_length _ _
    have hus : (o.view w.heap).us = { o.us with tmp := t } := by simp [HM.view, ha, ht]
    rw [hlen, hus]
    refine Res.Rel.bind (unionOpP_rel (b := P.k * P.k) (H := P.H) (o.ps.length + 1) hv ht (fun _ => hna)) ?_
    rintro ⟨h1, ps1, s1⟩ _ ⟨ok1, t', e1, rfl, e3⟩
    simp only at ok1 e1 e3 ⊢
    rw [wr_of hx, Res.ok_bind, rd_of (List.getElem?_set_self hx), Res.ok_bind, List.set_set]
    obtain ⟨c1, c2⟩ := apart_set hw ho (h' := h1) (o' := { o with ps := ps1, us := s1 }) (by rw [ok1.len])
      (fun b _ => by
        by_cases hb : b = a
        · left; subst hb; exact hoth
        · right; exact ok1.same b hb)
      (fun b hb => by
        rw [ok1.len]
        rcases ok1.ptr b hb with hb | rfl
        · exact hv b hb
        · exact hal)
      (fun b hb => by rw [ok1.len]; exact hvt b hb)
      (fun b hb => by
        rcases hb with hb | hb
        · rcases ok1.ptr b hb with hb | rfl
          · exact Or.inr (Or.inl hb)
          · exact Or.inr (Or.inr ha)
        · exact Or.inr (Or.inr hb))
      (fun hfin => ⟨hh, a, ha, ok1.free hfin, hoth⟩)
    refine .ok ⟨c1, c2, _, List.getElem?_set_self hx, ?_⟩
    simp [HM.view, ha, e1]

theorem contains_rel (P : MPar) {h : List BT} {o : HM} (hv : Valid h o.ps) (e : Edge) :
    o.contains P h e = DKM.contains P (o.view h) e := by
  unfold HM.contains DKM.contains
  rw [loadAll_eq hv]
  rfl

theorem listNeighbour_rel (P : MPar) {h : List BT} {o : HM} (hv : Valid h o.ps) (x : Nat) :
    o.listNeighbour P h x = DKM.listNeighbour P (o.view h) x := by
  unfold HM.listNeighbour DKM.listNeighbour
  rw [loadAll_eq hv]
  rfl

theorem flush_rel (P : MPar) {w : MWorld} (hw : w.Apart) {x : Nat} {o : HM} (ho : w.objs[x]? = some o) (e : Edge) :
    Res.Rel (After x w) (flush P w x o e) (DKM.flush P (o.view w.heap) e) := by
  obtain ⟨hv, hvt⟩ := hw.valid x o ho
  have hx : x < w.objs.length := (List.getElem?_eq_some_iff.1 ho).1
  unfold flush DKM.flush
  rw [loadAll_eq hv, Res.ok_bind]
  simp only [HM.view]
  cases DKM.selectLevel P.S (max o.nv o.nTotal) (lv w.heap o.ps) 0 (P.S.maxsz (max o.nv o.nTotal) 0) with
  | none => exact .throws
  | some i =>
    simp only
    refine Res.Rel.bind (Res.Rel.refl (R := fun a b => a = b) (fun _ => rfl) o.c0.converted) ?_
    rintro conv _ rfl
    refine Res.Rel.bind (Res.Rel.refl (R := fun a b => a = b) (fun _ => rfl) o.c0.clean) ?_
    rintro c _ rfl
    generalize htmp : BT.encode P.k (P.H o.nv) o.nv (conv ++ [e]) = tmp
    have hold : ∀ a, a < w.heap.length → (w.heap ++ [tmp])[a]? = w.heap[a]? := fun a ha => List.getElem?_append_left ha
    have hnew : (w.heap ++ [tmp])[w.heap.length]? = some tmp := by simp
    have hlv : lv (w.heap ++ [tmp]) o.ps = lv w.heap o.ps := lv_congr fun a ha => hold a (hv a ha)
    refine Res.Rel.bind (R := fun (r : List (Option Nat) × US) (q : List (Option BT) × US) =>
        q = (lv (w.heap ++ [tmp]) r.1, r.2) ∧ r.2.tmp = tmp ∧
        (∀ a, some a ∈ r.1 → some a ∈ o.ps ∨ a = w.heap.length) ∧
        (r.2.finish = false → some w.heap.length ∉ r.1)) ?_ ?_
    · unfold US.createP US.create
      split
      · exact .ub
      · simp only [htmp]
        rw [scanP_eq (h := w.heap) hv]
        split
        · refine .ok ⟨by rw [hlv], rfl, fun a ha => Or.inl ha, fun _ hc => ?_⟩
          exact absurd (hv _ hc) (lt_irrefl _)
        · refine Res.Rel.bind (HG.wr_rel (lv_length w.heap o.ps).symm i (some w.heap.length) (some tmp)) ?_
          rintro ps1 ks1 ⟨_, rfl, rfl⟩
          refine .ok ⟨by rw [lv_set _ hnew, hlv], rfl, fun a ha => ?_, by simp⟩
          rcases List.mem_or_eq_of_mem_set ha with ha | ha
          · exact Or.inl ha
          · cases ha; exact Or.inr rfl
    · rintro ⟨ps1, s1⟩ _ ⟨rfl, h1, h2, h3⟩
      simp only at h1 h2 h3 ⊢
      have hfresh : ∀ (y : Nat) (p : HM), y ≠ x → w.objs[y]? = some p → some w.heap.length ∉ p.ps ∧ p.tp ≠ some w.heap.length := by
        intro y p _ hp
        obtain ⟨k1, k2⟩ := hw.valid y p hp
        exact ⟨fun hc => absurd (k1 _ hc) (lt_irrefl _), fun hc => absurd (k2 _ hc) (lt_irrefl _)⟩
      obtain ⟨c1, c2⟩ := apart_set hw ho (h' := w.heap ++ [tmp])
        (o' := ⟨max i o.maxR, o.nv, o.nTotal, c, ps1, lv w.heap o.ps, e, s1, some w.heap.length, x⟩) (by simp)
        (fun a ha => Or.inr (hold a ha))
        (fun a ha => by
          rcases h2 a ha with ha | rfl
          · have := hv a ha; simp; omega
          · simp)
        (fun a ha => by cases ha; simp)
        (fun a ha => by
          rcases ha with ha | ha
          · rcases h2 a ha with ha | rfl
            · exact Or.inr (Or.inl ha)
            · exact Or.inl le_rfl
          · cases ha; exact Or.inl le_rfl)
        (fun hf => ⟨rfl, _, rfl, h3 hf, hfresh⟩)
      have hu := unionStep_rel P c1 (x := x) (List.getElem?_set_self hx)
      have hview : HM.view (w.heap ++ [tmp])
          ⟨max i o.maxR, o.nv, o.nTotal, c, ps1, lv w.heap o.ps, e, s1, some w.heap.length, x⟩ =
          ⟨max i o.maxR, o.nv, o.nTotal, c, lv (w.heap ++ [tmp]) ps1, lv w.heap o.ps, e, s1⟩ := by
        simp only [HM.view, Option.bind_some, hnew, Option.getD_some]
        rw [← h1]
      simp only [hview] at hu
      refine Res.Rel.bind hu ?_
      rintro w2 d2 ⟨a1, a2, o2, a3, rfl⟩
      rw [rd_of a3, Res.ok_bind]
      have hx2 : x < w2.objs.length := (List.getElem?_eq_some_iff.1 a3).1
      obtain ⟨v1, v2⟩ := a1.valid x o2 a3
      obtain ⟨b1, b2⟩ := apart_set a1 a3 (h' := w2.heap) (o' := { o2 with nTotal := o2.nTotal + 1 }) le_rfl
        (fun a _ => Or.inr rfl) v1 v2 (fun a ha => Or.inr ha) (fun hf => a1.pend x o2 a3 hf)
      exact .ok ⟨b1, (c2.trans a2).trans b2, _, List.getElem?_set_self hx2, rfl⟩

theorem addEdge_rel (P : MPar) {w : MWorld} (hw : w.Apart) {x : Nat} {o : HM} (ho : w.objs[x]? = some o) (e : Edge) :
    Res.Rel (After x w) (addEdge P w x e) (DKM.addEdge P (o.view w.heap) e) := by
  unfold addEdge DKM.addEdge
  refine Res.Rel.bind (unionStep_rel P hw ho) ?_
  rintro w1 d1 ⟨a1, a2, o1, a3, rfl⟩
  rw [rd_of a3, Res.ok_bind]
  obtain ⟨v1, v2⟩ := a1.valid x o1 a3
  have hx1 : x < w1.objs.length := (List.getElem?_eq_some_iff.1 a3).1
  rw [contains_rel P v1]
  refine Res.Rel.bind (Res.Rel.refl (R := fun a b => a = b) (fun _ => rfl) _) ?_
  rintro b _ rfl
  cases b with
  | true => exact .ok ⟨a1, a2, o1, a3, rfl⟩
  | false =>
    simp only [Bool.false_eq_true, if_false]
    have hc0 : (o1.view w1.heap).c0 = o1.c0 := rfl
    have hnv : (o1.view w1.heap).nv = o1.nv := rfl
    have hnt : (o1.view w1.heap).nTotal = o1.nTotal := rfl
    have hfi : (o1.view w1.heap).us.finish = o1.us.finish := rfl
    rw [hc0, hnv, hnt, hfi]
    split
    · refine Res.Rel.bind (Res.Rel.refl (R := fun a b => a = b) (fun _ => rfl) _) ?_
      rintro c _ rfl
      obtain ⟨b1, b2⟩ := apart_set a1 a3 (h' := w1.heap) (o' := { o1 with c0 := c, nTotal := o1.nTotal + 1 }) le_rfl
        (fun a _ => Or.inr rfl) v1 v2 (fun a ha => Or.inr ha) (fun hf => a1.pend x o1 a3 hf)
      exact .ok ⟨b1, a2.trans b2, _, List.getElem?_set_self hx1, rfl⟩
    · split
      · refine Res.Rel.mono ?_ (flush_rel P a1 a3 e)
        rintro w2 d2 ⟨b1, b2, b3⟩
        exact ⟨b1, a2.trans b2, b3⟩
      · exact .abort

/-- One call. -/
theorem call_rel (P : MPar) {w : MWorld} (hw : w.Apart) {x : Nat} {o : HM} (ho : w.objs[x]? = some o) (op : Op) :
    Res.Rel (After x w) (w.call P x op) ((o.view w.heap).step P op) := by
  cases op with
  | add e => exact addEdge_rel P hw ho e
  | del e =>
    simp only [call, DKM.step, DKM.delEdge, rd_of ho, Res.ok_bind]
    exact .ok ⟨hw, Chg.refl x w, o, ho, rfl⟩

/-- Copying an object with no pending merge. -/
theorem copy_apart {w : MWorld} (hw : w.Apart) {x : Nat} {o : HM} (ho : w.objs[x]? = some o) (hf : o.us.finish = true) :
    Apart { w with objs := w.objs ++ [o] } := by
  have hget : ∀ (y : Nat) p, (w.objs ++ [o])[y]? = some p → w.objs[y]? = some p ∨ (y = w.objs.length ∧ p = o) := by
    intro y p hp
    by_cases hy : y < w.objs.length
    · rw [List.getElem?_append_left hy] at hp; exact Or.inl hp
    · rw [List.getElem?_append_right (by omega)] at hp
      have h0 : y - w.objs.length = 0 := by
        by_contra hc
        rw [List.getElem?_eq_none (by simp; omega)] at hp
        cases hp
      rw [h0] at hp
      cases hp
      exact Or.inr ⟨by omega, rfl⟩
  constructor
  · intro y p hp
    rcases hget y p hp with hp | ⟨_, rfl⟩
    · exact hw.valid y p hp
    · exact hw.valid x p ho
  · intro y p hp hfp
    rcases hget y p hp with hp' | ⟨_, rfl⟩
    · obtain ⟨h1, a, h2, h3, h4⟩ := hw.pend y p hp' hfp
      refine ⟨h1, a, h2, h3, fun z q hz hq => ?_⟩
      rcases hget z q hq with hq | ⟨_, rfl⟩
      · exact h4 z q hz hq
      · by_cases hxy : x = y
        · subst hxy
          rw [ho] at hp'; cases hp'
          rw [hf] at hfp; cases hfp
        · exact h4 x q hxy ho
    · rw [hf] at hfp; cases hfp

end MWorld
end DK2
