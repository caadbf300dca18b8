import Verif.AliasIter
import Verif.PropsPrune
/-!
# Looping over the edges while edges are deleted

`del_edge` erases in place in the trees to which the iterator's copies of the pointers refer (DKtree.hpp:188-192,
DKtreeEdgeIterator.hpp:56).  What `++` of a `k2_tree` edge iterator does with an edge erased meanwhile is not part of the
repository; here it may skip such an edge or visit it, in any pattern (`look`).
-/

namespace DK2
variable {K : K2Impl}

/-- Extra assumption on `k2_tree::erase`: the other edges keep their order in the iteration. -/
def K2Impl.KeepsOrder (K : K2Impl) : Prop := ∀ n t e, K.valid n t → InRange n e →
  (K.edges (K.erase t e).2).Sublist (K.edges t)

namespace HG

/-- `DKtreeEdgeIterator` (DKtreeEdgeIterator.hpp:216-227): the fields as in `DK.EIt`, and the pointers `_kcollection`. -/
structure DIt where
  v : DK.EIt
  ps : List (Option Nat)

/-- `edge_begin()` (DKtree.hpp:275-279, DKtreeEdgeIterator.hpp:52-86): as `DK.eBegin` on the trees the pointers refer to
now. -/
def dBegin (h : Heap K) (o : HG) : Res DIt := do
  let v ← (view h o).eBegin 0
  .ok ⟨v, o.ps⟩

/-- Where `++` of a tree iterator stops: at the next edge of the sequence, except that edges erased from `t` meanwhile are
skipped if `look` says so. -/
def skipGone (K : K2Impl) (t : K.T) (look : Edge → Bool) (l : List Edge) : List Edge :=
  l.dropWhile (fun e => look e && decide (e ∉ K.edges t))

/-- `operator++()` (DKtreeEdgeIterator.hpp:116-153), as `DK.eNext`, with the assertion of line 126 (`nd`: compiled
out). -/
def dNext (nd : Bool) (look : Edge → Bool) (h : Heap K) (it : DIt) : Res DIt :=
  if it.v.dist < (it.v.c0.size : Int) then
    if it.v.dist + 1 < (it.v.c0.size : Int) then do
      let o ← rd it.v.c0.elementsNodes (it.v.dist + 1).toNat
      let e ← use o
      .ok { it with v := { it.v with dist := it.v.dist + 1, ptr := e } }
    else
      match firstP it.ps 0 with
      | some (j, a) => do
        let t ← rd h a
        let o ← rd it.v.cur j
        let l ← use o
        if nd || decide (l.head? = (K.edges t).head?) then do
          let e ← DK.deref l
          .ok { it with v := { it.v with dist := it.v.dist + 1, ptr := e, i := j } }
        else .abort
      | none => .ok { it with v := { it.v with dist := it.v.dist + 1, ptr := DK.maxEdge } }
  else
    match firstP it.ps it.v.i with
    | none => .ok { it with v := { it.v with ptr := DK.maxEdge, i := RS } }
    | some (j, a) => do
      let t ← rd h a
      let o ← rd it.v.cur j
      let l ← use o
      match l with
      | [] => .ub
      | _ :: l =>
        match skipGone K t look l with
        | e :: l' => .ok { it with v := { it.v with cur := it.v.cur.set j (some (e :: l')), ptr := e, i := j } }
        | [] =>
          (match firstP it.ps (j + 1) with
          | some (j', _) => do
            let o ← rd it.v.cur j'
            let l' ← use o
            let e ← DK.deref l'
            .ok { it with v := { it.v with cur := it.v.cur.set j (some []), ptr := e, i := j' } }
          | none => .ok { it with v := { it.v with cur := it.v.cur.set j (some []), ptr := DK.maxEdge, i := RS } })

/-- The user's loop `for (it = begin; it != end; ++it) { visit(*it); … }`.  The body calls `body vs e`: `e` is the edge
visited now, `vs` are those visited before.  `look k` is the iterators' choice at the `k`-th step. -/
def dLoop (nd : Bool) (S : Sizing) (body : List Edge → Edge → List Op) (look : Nat → Edge → Bool) :
    Nat → List Edge → Heap K × HG → DIt → Res (List Edge × (Heap K × HG))
  | 0, _, _, _ => .diverge
  | f + 1, vs, r, it =>
    match DK.eCur it.v with
    | none => .ok ([], r)
    | some e => do
      let r' ← runFrom S r (body vs e)
      let it' ← dNext nd (look vs.length) r'.1 it
      let l ← dLoop nd S body look f (vs ++ [e]) r' it'
      .ok (e :: l.1, l.2)

/-- The loop from `edge_begin()` to `edge_end()`; the visited edges and the final graph. -/
def dFor (nd : Bool) (S : Sizing) (body : List Edge → Edge → List Op) (look : Nat → Edge → Bool) (fuel : Nat)
    (r : Heap K × HG) : Res (List Edge × (Heap K × HG)) := do
  let it ← dBegin r.1 r.2
  dLoop nd S body look fuel [] r it

/-! ## Erasing in place -/

/-- The edges named by deletions. -/
def delsOf (ops : List Op) : List Edge := ops.filterMap fun | .add _ => none | .del e => some e

theorem delsOf_append (a b : List Op) : delsOf (a ++ b) = delsOf a ++ delsOf b := List.filterMap_append

/-- Every tree is still there, and has lost only edges of `D`. -/
def Shrunk (D : List Edge) (h h' : Heap K) : Prop := ∀ (a : Nat) (t : K.T), h[a]? = some t → ∃ t', h'[a]? = some t' ∧
  (K.edges t').Sublist (K.edges t) ∧ ∀ e ∈ K.edges t, e ∉ D → e ∈ K.edges t'

theorem Shrunk.refl (D : List Edge) (h : Heap K) : Shrunk D h h := fun _ t ht => ⟨t, ht, List.Sublist.refl _, fun _ he _ => he⟩

theorem Shrunk.trans {D D' : List Edge} {h h' h'' : Heap K} (a : Shrunk D h h') (b : Shrunk D' h' h'') :
    Shrunk (D ++ D') h h'' := by
  intro x t ht
  obtain ⟨t', a1, a2, a3⟩ := a x t ht
  obtain ⟨t'', b1, b2, b3⟩ := b x t' a1
  exact ⟨t'', b1, b2.trans a2, fun e he hd => b3 e (a3 e he (fun h => hd (by simp [h]))) (fun h => hd (by simp [h]))⟩

theorem Shrunk.of_keep {D : List Edge} {h h' : Heap K} (hk : Keep h h') : Shrunk D h h' := by
  intro a t ht
  refine ⟨t, ?_, List.Sublist.refl _, fun _ he _ => he⟩
  rw [hk a (List.getElem?_eq_some_iff.1 ht).1, ht]

theorem Shrunk.set {D : List Edge} {h : Heap K} {p : Nat} {t t' : K.T} (ht : h[p]? = some t)
    (h1 : (K.edges t').Sublist (K.edges t)) (h2 : ∀ e ∈ K.edges t, e ∉ D → e ∈ K.edges t') : Shrunk D h (h.set p t') := by
  intro a u hu
  by_cases hap : p = a
  · subst hap
    rw [ht] at hu; cases hu
    refine ⟨t', ?_, h1, h2⟩
    rw [List.getElem?_set_self (List.getElem?_eq_some_iff.1 ht).1]
  · exact ⟨u, by rw [List.getElem?_set_ne hap]; exact hu, List.Sublist.refl _, fun _ he _ => he⟩

theorem eraseScan_shrunk (hK : K.Lawful) (hO : K.KeepsOrder) {n : Nat} {e : Edge} (he : InRange n e) :
    ∀ {ps : List (Option Nat)} {h : Heap K}, Own h ps → (∀ t, some t ∈ vw h ps → K.valid n t) →
    ∀ {r : Bool × Heap K}, eraseScan K e h ps = .ok r → Shrunk [e] h r.2 := by
  intro ps
  induction ps with
  | nil => intro h _ _ r hr; cases hr; exact Shrunk.refl _ _
  | cons p ps ih =>
    intro h ho hv r hr
    cases p with
    | none => exact ih ho.tail (fun t ht => hv t (by simp only [vw_none, List.mem_cons]; exact Or.inr ht)) hr
    | some a =>
      obtain ⟨t, ht⟩ := ho.get
      have hlt := ho.lt a (by simp)
      have hvt : K.valid n t := hv t (by rw [vw_some ht]; simp)
      obtain ⟨s1, s2⟩ := scan_some (t' := (K.erase t e).2) ho ht
      simp only [eraseScan, rd_of ht, wr_of hlt, Res.ok_bind] at hr
      have hset : Shrunk [e] h (h.set a (K.erase t e).2) :=
        Shrunk.set ht (hO n t e hvt he) (fun e' he' hd => (hK.erase_edges n t e hvt he e').2 ⟨he', by simpa using hd⟩)
      split at hr
      · cases hr; exact hset
      · have := ih (ho.tail.len (by simp)) (fun u hu => hv u (by
          rw [s1] at hu
          rw [vw_some ht]; exact List.mem_cons_of_mem _ hu)) hr
        intro x u hu
        obtain ⟨t', a1, a2, a3⟩ := (hset.trans this) x u hu
        exact ⟨t', a1, a2, fun e' he' hd => a3 e' he' (by simpa using hd)⟩

theorem step_shrunk (hK : K.Lawful) (hF : K.ForcedPure) (hO : K.KeepsOrder) (S : Sizing) {h : Heap K} {o : HG}
    (ho : Own h o.ps) (hi : (view h o).Inv) {op : Op} (hop : InRange o.nv op.edge) {r : Heap K × HG}
    (hr : step S h o op = .ok r) : Shrunk (delsOf [op]) h r.1 := by
  cases op with
  | add e => exact Shrunk.of_keep (addEdge_keep hF ho hr)
  | del e =>
    simp only [step, delEdge] at hr
    rw [Res.bind_eq_ok] at hr
    obtain ⟨⟨b, c⟩, hb, hr⟩ := hr
    cases b with
    | true => cases hr; exact Shrunk.refl _ _
    | false =>
      simp only [Bool.false_eq_true, if_false] at hr
      rw [Res.bind_eq_ok] at hr
      obtain ⟨a, h1, hr⟩ := hr
      rw [Res.bind_eq_ok] at hr
      obtain ⟨s, h2, hr⟩ := hr
      have hs : Shrunk [e] h a.2 := eraseScan_shrunk hK hO (n := o.nv) hop ho (fun t ht => hi.val t ht) h1
      obtain ⟨h3, e1, e2, e3, e4⟩ := eraseScan_ok (e := e) ho
      rw [h1] at e1
      injection e1 with e1
      have ea : a.2 = h3 := by rw [e1]
      rw [← ea] at e2 e3 e4
      have ho1 : Own a.2 o.ps := ho.len e4.ge
      obtain ⟨qs, s1, s2, s3⟩ := sweep_ok ho1
      rw [h2] at s1
      injection s1 with s1
      have es : s.2 = qs := by rw [s1]
      have ho2 : Own a.2 qs := ho1.sub s3
      show Shrunk [e] h r.1
      generalize (if a.1 = true then decr o.nTotal else o.nTotal) = nt at hr
      split at hr
      · intro x u hu
        have := hs.trans (Shrunk.of_keep (D := []) (rebuild_keep hF (o := { o with c0 := c, ps := s.2, nTotal := _ }) (es ▸ ho2) hr))
        obtain ⟨t', b1, b2, b3⟩ := this x u hu
        exact ⟨t', b1, b2, fun e' he' hd => b3 e' he' (by simpa using hd)⟩
      · cases hr; exact hs

/-- A list of calls: the value-level run, the invariants, and what became of the trees. -/
theorem runFrom_shrunk (hK : K.Lawful) (hF : K.ForcedPure) (hO : K.KeepsOrder) (S : Sizing) {n : Nat} (h2 : 2 ≤ n) :
    ∀ (ops : List Op) {r r' : Heap K × HG} {G : Edge → Prop}, Own r.1 r.2.ps → DK.Track (view r.1 r.2) G → r.2.nv = n →
    OpsInRange n ops → runFrom S r ops = .ok r' →
    DK.runFrom S (view r.1 r.2) ops = .ok (view r'.1 r'.2) ∧ Own r'.1 r'.2.ps ∧ (∃ G', DK.Track (view r'.1 r'.2) G') ∧
      r'.2.nv = n ∧ Shrunk (delsOf ops) r.1 r'.1 := by
  intro ops
  induction ops with
  | nil => intro r r' G ho ht hn _ hr; cases hr; exact ⟨rfl, ho, ⟨G, ht⟩, hn, Shrunk.refl _ _⟩
  | cons op ops ih =>
    intro r r' G ho ht hn hops hr
    simp only [runFrom] at hr
    rw [Res.bind_eq_ok] at hr
    obtain ⟨r1, h1, hr⟩ := hr
    have hop : InRange r.2.nv op.edge := by rw [hn]; exact hops op (by simp)
    have hrel := step_rel S ho op
    rw [h1] at hrel
    obtain ⟨g1, hg1, a1, a2, _, _⟩ := hrel.ok_left
    obtain ⟨t1, hnv⟩ := ht.step hK hF S (o := op) hop (by show 2 ≤ r.2.nv; omega) hg1
    rw [a1] at t1 hnv hg1
    obtain ⟨b1, b2, b3, b4, b5⟩ := ih a2 t1 (by rw [← hn]; exact hnv) (fun o h => hops o (by simp [h])) hr
    refine ⟨?_, b2, b3, b4, ?_⟩
    · simp only [DK.runFrom]
      rw [hg1, Res.ok_bind, b1]
    · have := (step_shrunk hK hF hO S ho ht.inv hop h1).trans b5
      rw [← delsOf_append] at this
      exact this

/-! ## One step of the iterator -/

/-- The iterator's pointers and the sequences of its tree iterators. `E0 a`: what the tree at `a` held when the loop
began. -/
structure Fits (E0 : Nat → List Edge) (it : DIt) : Prop where
  len : it.v.cur.length = it.ps.length
  full : ∀ (j a : Nat), it.ps[j]? = some (some a) → ∃ l, it.v.cur[j]? = some (some l) ∧ ∀ e ∈ l, e ∈ E0 a
  null : ∀ j : Nat, it.ps[j]? = some none → it.v.cur[j]? = some none
  start : it.v.dist < (it.v.c0.size : Int) → ∀ (j a : Nat), it.ps[j]? = some (some a) →
    it.v.cur[j]? = some (some (E0 a))

theorem Fits.first {E0 : Nat → List Edge} {it : DIt} (h : Fits E0 it) (i : Nat) :
    (firstP it.ps i = none ∧ DK.firstFrom it.v.cur i = none) ∨
    ∃ j a l, firstP it.ps i = some (j, a) ∧ DK.firstFrom it.v.cur i = some (j, l) ∧ it.ps[j]? = some (some a) ∧
      it.v.cur[j]? = some (some l) := by
  have hc : DK.firstFrom it.v.cur i = (firstP it.ps i).map (fun p => (p.1, ((it.v.cur[p.1]?.join).getD []))) := by
    unfold DK.firstFrom firstP
    rw [h.len]
    refine findSome?_map_congr ?_
    intro j hj
    have hj' : j < it.ps.length := by
      have := List.mem_of_mem_drop hj
      simpa using this
    cases hp : it.ps[j]? with
    | none => simp at hp; omega
    | some p =>
      cases p with
      | none => rw [h.null j hp]; simp
      | some a =>
        obtain ⟨l, hl, _⟩ := h.full j a hp
        rw [hl]; simp [hl]
  cases hf : firstP it.ps i with
  | none => left; rw [hc, hf]; simp
  | some p =>
    obtain ⟨j, a⟩ := p
    right
    have hp := firstP_mem hf
    obtain ⟨l, hl, _⟩ := h.full j a hp
    exact ⟨j, a, l, rfl, by rw [hc, hf]; simp [hl], hp, hl⟩

/-- The assertion of line 126 fails. -/
def AssertFails (h : Heap K) (it : DIt) : Prop := it.v.dist < (it.v.c0.size : Int) ∧
  ∃ (j a : Nat) (t : K.T) (l : List Edge), firstP it.ps 0 = some (j, a) ∧ h[a]? = some t ∧ it.v.cur[j]? = some (some l) ∧
    l.head? ≠ (K.edges t).head?

/-- A step that succeeds: `L` is what lies ahead. -/
def Moved (E0 : Nat → List Edge) (h : Heap K) (it it' : DIt) (L : List Edge) : Prop :=
  it'.ps = it.ps ∧ it'.v.c0 = it.v.c0 ∧ Fits E0 it' ∧ ∃ L1 L2, L = L1 ++ L2 ∧ DK.EAt it'.v L2 ∧
    ∀ e ∈ L1, ∃ (a : Nat) (t : K.T), some a ∈ it.ps ∧ e ∈ E0 a ∧ h[a]? = some t ∧ e ∉ K.edges t

theorem firstP_self {ps : List (Option Nat)} {j a : Nat} (h : ps[j]? = some (some a)) : firstP ps j = some (j, a) := by
  have hjl : j < ps.length := (List.getElem?_eq_some_iff.1 h).1
  unfold firstP
  rw [List.drop_eq_getElem_cons (by simpa using hjl), List.findSome?_cons]
  simp [h]

theorem Fits.set {E0 : Nat → List Edge} {v v' : DK.EIt} {ps : List (Option Nat)} (hf : Fits E0 ⟨v, ps⟩) {j a : Nat}
    (hj : ps[j]? = some (some a)) {l : List Edge} (hl : ∀ e ∈ l, e ∈ E0 a) (hc : v'.cur = v.cur.set j (some l))
    (hd : (v'.c0.size : Int) ≤ v'.dist) : Fits E0 ⟨v', ps⟩ := by
  have hjl : j < v.cur.length := by
    have := (List.getElem?_eq_some_iff.1 hj).1
    have := hf.len
    simp only at this; omega
  refine ⟨?_, ?_, ?_, fun h => ?_⟩
  · show v'.cur.length = _
    rw [hc, List.length_set]; exact hf.len
  · intro i b hi
    show ∃ l, v'.cur[i]? = _ ∧ _
    rw [hc]
    by_cases hij : j = i
    · subst hij
      simp only at hi
      rw [hj] at hi; cases hi
      exact ⟨l, by rw [List.getElem?_set_self hjl], hl⟩
    · rw [List.getElem?_set_ne hij]; exact hf.full i b hi
  · intro i hi
    show v'.cur[i]? = _
    have hij : j ≠ i := by
      rintro rfl
      simp only at hi
      rw [hj] at hi; cases hi
    rw [hc, List.getElem?_set_ne hij]; exact hf.null i hi
  · exact absurd h (not_lt.2 hd)

/-- `++` within the levels, the current tree iterator standing at `x :: l`. -/
theorem dNext_level {E0 : Nat → List Edge} {look : Edge → Bool} (nd : Bool) {h : Heap K} {ps : List (Option Nat)}
    {j a : Nat} {t : K.T} (hj : ps[j]? = some (some a)) (ht : h[a]? = some t) :
    ∀ (l : List Edge) {v : DK.EIt} {x : Edge} {L : List Edge}, v.c0.WF → Fits E0 ⟨v, ps⟩ → (v.c0.size : Int) ≤ v.dist →
      firstP ps v.i = some (j, a) → v.cur[j]? = some (some (x :: l)) → DK.EAt v (x :: L) →
      ∃ it', dNext nd look h ⟨v, ps⟩ = .ok it' ∧ Moved E0 h ⟨v, ps⟩ it' L := by
  intro l
  induction l with
  | nil =>
    intro v x L hw hf hd hp hc hat
    obtain ⟨_, v', n1, n2, n3⟩ := hat.next hw
    have hnd : ¬ v.dist < (v.c0.size : Int) := by omega
    have hff : DK.firstFrom v.cur v.i = some (j, [x]) := by
      rcases hf.first v.i with ⟨f1, _⟩ | ⟨j', a', l', f1, f2, f3, f4⟩
      · simp only at f1; rw [hp] at f1; cases f1
      · simp only at f1 f2 f4
        rw [hp] at f1; cases f1
        rw [hc] at f4; cases f4
        exact f2
    unfold DK.eNext at n1
    simp only [if_neg hnd, hff] at n1
    rcases hf.first (j + 1) with ⟨f1, f2⟩ | ⟨j', a', l', f1, f2, f3, f4⟩
    · simp only at f1 f2
      rw [f2] at n1
      simp only at n1
      cases n1
      refine ⟨⟨{ v with cur := v.cur.set j (some []), ptr := DK.maxEdge, i := RS }, ps⟩, ?_, rfl, rfl,
        hf.set hj (l := []) (by simp) rfl hd, [], L, rfl, n3, by simp⟩
      unfold dNext
      simp only [if_neg hnd, hp, rd_of ht, rd_of hc, use, Res.ok_bind, skipGone, List.dropWhile_nil, f1]
    · simp only at f1 f2 f4
      rw [f2] at n1
      simp only [Res.bind_eq_ok] at n1
      obtain ⟨e, n1, n4⟩ := n1
      cases n4
      refine ⟨⟨{ v with cur := v.cur.set j (some []), ptr := e, i := j' }, ps⟩, ?_, rfl, rfl,
        hf.set hj (l := []) (by simp) rfl hd, [], L, rfl, n3, by simp⟩
      unfold dNext
      simp only [if_neg hnd, hp, rd_of ht, rd_of hc, use, Res.ok_bind, skipGone, List.dropWhile_nil, f1, rd_of f4, n1]
  | cons y l ih =>
    intro v x L hw hf hd hp hc hat
    obtain ⟨_, v', n1, n2, n3⟩ := hat.next hw
    have hnd : ¬ v.dist < (v.c0.size : Int) := by omega
    have hff : DK.firstFrom v.cur v.i = some (j, x :: y :: l) := by
      rcases hf.first v.i with ⟨f1, _⟩ | ⟨j', a', l', f1, f2, f3, f4⟩
      · simp only at f1; rw [hp] at f1; cases f1
      · simp only at f1 f2 f4
        rw [hp] at f1; cases f1
        rw [hc] at f4; cases f4
        exact f2
    unfold DK.eNext at n1
    simp only [if_neg hnd, hff] at n1
    cases n1
    obtain ⟨l0, hl0, hl1⟩ := hf.full j a hj
    simp only at hl0
    rw [hc] at hl0; cases hl0
    have hjl : j < v.cur.length := (List.getElem?_eq_some_iff.1 hc).1
    have hfit : Fits E0 ⟨{ v with cur := v.cur.set j (some (y :: l)), ptr := y, i := j }, ps⟩ :=
      hf.set hj (l := y :: l) (fun e he => hl1 e (List.mem_cons_of_mem _ he)) rfl hd
    by_cases hs : (look y && decide (y ∉ K.edges t)) = true
    · have hL : ∃ L', L = y :: L' := by
        rcases hat with ⟨i, _, _, h1, h2, _⟩ | ⟨_, b, l1, j', h2, h3, h4, h5⟩ | ⟨_, h5⟩
        · omega
        · rw [hff] at h2; cases h2
          injection h5 with _ h5
          exact ⟨_, h5⟩
        · cases h5
      obtain ⟨L', rfl⟩ := hL
      obtain ⟨it', i1, i2, i3, i4, L1, L2, i5, i6, i7⟩ := ih (v := { v with cur := v.cur.set j (some (y :: l)), ptr := y, i := j })
        (x := y) (L := L') hw hfit hd (firstP_self hj) (List.getElem?_set_self hjl) n3
      have hsk : skipGone K t look (y :: l) = skipGone K t look l := List.dropWhile_cons_of_pos hs
      refine ⟨it', ?_, i2, i3, i4, y :: L1, L2, by rw [i5]; rfl, i6, ?_⟩
      · rw [← i1]
        unfold dNext
        simp only [if_neg hnd, hp, firstP_self hj, rd_of ht, rd_of hc, rd_of (List.getElem?_set_self hjl), use, Res.ok_bind,
          hsk, List.set_set]
        cases hdw : skipGone K t look l with
        | cons e l' => rfl
        | nil =>
          simp only
          rcases hf.first (j + 1) with ⟨f1, f2⟩ | ⟨j', a', l', f1, f2, f3, f4⟩
          · simp only at f1; simp only [f1]
          · simp only at f1 f4 f2
            have := (DK.firstFrom_some f2).1
            simp only [f1, rd_of f4]
            rw [rd_of (a := some l') (by rw [List.getElem?_set_ne (by omega)]; exact f4)]
      · intro e he
        rcases List.mem_cons.1 he with rfl | he
        · simp only [Bool.and_eq_true, decide_eq_true_eq] at hs
          exact ⟨a, t, List.mem_of_getElem? hj, hl1 _ (by simp), ht, hs.2⟩
        · exact i7 e he
    · have hsk : skipGone K t look (y :: l) = y :: l := List.dropWhile_cons_of_neg hs
      refine ⟨⟨{ v with cur := v.cur.set j (some (y :: l)), ptr := y, i := j }, ps⟩, ?_, rfl, rfl, hfit, [], L, rfl, n3,
        by simp⟩
      unfold dNext
      simp only [if_neg hnd, hp, rd_of ht, rd_of hc, use, Res.ok_bind, hsk]

/-- `++`: it succeeds unless the assertion fails. -/
theorem dNext_spec {E0 : Nat → List Edge} {look : Edge → Bool} (nd : Bool) {h : Heap K} {it : DIt}
    (hlt : ∀ a, some a ∈ it.ps → a < h.length) {x : Edge} {L : List Edge} (hw : it.v.c0.WF) (hf : Fits E0 it)
    (hat : DK.EAt it.v (x :: L)) :
    (∃ it', dNext nd look h it = .ok it' ∧ Moved E0 h it it' L) ∨
    (dNext nd look h it = .abort ∧ nd = false ∧ AssertFails h it) := by
  by_cases hd : it.v.dist < (it.v.c0.size : Int)
  · obtain ⟨_, v', n1, n2, n3⟩ := hat.next hw
    unfold DK.eNext at n1
    rw [if_pos hd] at n1
    unfold dNext
    rw [if_pos hd]
    by_cases hd1 : it.v.dist + 1 < (it.v.c0.size : Int)
    · rw [if_pos hd1] at n1 ⊢
      simp only [Res.bind_eq_ok] at n1
      obtain ⟨o, n4, e, n5, n6⟩ := n1
      cases n6
      left
      refine ⟨{ it with v := { it.v with dist := it.v.dist + 1, ptr := e } },
        by rw [n4, Res.ok_bind, n5, Res.ok_bind], rfl, rfl,
        ⟨hf.len, hf.full, hf.null, fun _ => hf.start hd⟩, [], L, rfl, n3, by simp⟩
    · rw [if_neg hd1] at n1 ⊢
      have hfit : ∀ e i, Fits E0 { it with v := { it.v with dist := it.v.dist + 1, ptr := e, i := i } } := fun e i =>
        ⟨hf.len, hf.full, hf.null, fun h => absurd h hd1⟩
      rcases hf.first 0 with ⟨f1, f2⟩ | ⟨j, a, l, f1, f2, f3, f4⟩
      · rw [f2] at n1
        simp only at n1
        cases n1
        left
        exact ⟨{ it with v := { it.v with dist := it.v.dist + 1, ptr := DK.maxEdge } }, by rw [f1], rfl, rfl, hfit _ _, [], L,
          rfl, n3, by simp⟩
      · rw [f2] at n1
        simp only [Res.bind_eq_ok] at n1
        obtain ⟨e, n4, n5⟩ := n1
        cases n5
        have hal := hlt a (List.mem_of_getElem? f3)
        have ht : h[a]? = some h[a] := List.getElem?_eq_getElem hal
        rw [f1]
        simp only [rd_of ht, rd_of f4, use, Res.ok_bind]
        by_cases hc : (nd || decide (l.head? = (K.edges h[a]).head?)) = true
        · rw [if_pos hc]
          left
          exact ⟨{ it with v := { it.v with dist := it.v.dist + 1, ptr := e, i := j } }, by rw [n4, Res.ok_bind], rfl, rfl,
            hfit _ _, [], L, rfl, n3, by simp⟩
        · rw [if_neg hc]
          right
          simp only [Bool.or_eq_true, not_or, decide_eq_true_eq] at hc
          exact ⟨rfl, by simpa using hc.1, hd, j, a, h[a], l, f1, ht, f4, hc.2⟩
  · left
    rcases hat with ⟨i, _, _, h1, h2, _⟩ | ⟨h1, b, l1, j, h2, h3, h4, h5⟩ | ⟨_, h5⟩
    · omega
    · injection h5 with h5 h6
      subst h5
      rcases hf.first it.v.i with ⟨_, f2⟩ | ⟨j', a, l, f1, f2, f3, f4⟩
      · rw [h2] at f2; cases f2
      · rw [h2] at f2; cases f2
        have hal := hlt a (List.mem_of_getElem? f3)
        exact dNext_level nd f3 (List.getElem?_eq_getElem hal) l1 hw hf h1 f1 f4
          (Or.inr (Or.inl ⟨h1, _, l1, j, h2, h3, h4, by rw [h6]; rfl⟩))
    · cases h5

end HG
end DK2
