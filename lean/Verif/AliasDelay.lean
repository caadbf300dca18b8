import Verif.PropsAlias
import Verif.DelayProofs
/-!
# `DKtree_delay` with its pointers (`include/dktree/DKtree_delay.hpp`)

As `Alias` for `DKtree`: the trees live in a heap, `k_collection` and `tmp` hold addresses, and the implicit copy
constructor copies the addresses.  Unlike `DKtree`, this class merges *in place*: `k_collection[union_i]->unionOp(...)`
(DKtree_delay.hpp:100, 103) changes the tree that other copies point to.
-/

namespace DK2

/-- `DKtree_delay` (DKtree_delay.hpp:51-63, 90-93) as `DKD`, with pointers. -/
structure HD where
  g : HG
  ui : Nat
  uprev : Nat
  ufinal : Nat
  tmp : Option Nat

namespace HD
variable {K : K2Impl}

/-- `DKtree_delay(n_vertices)` (DKtree_delay.hpp:67-76, 90-93). -/
def create (S : Sizing) (n : Nat) : Res HD := do
  let g ← HG.create S n
  .ok ⟨g, 0, RS, 1, none⟩

/-- `work_done()` (DKtree_delay.hpp:121-123). -/
def workDone (o : HD) : Bool := decide (o.ufinal < o.ui)

/-- The end of `union_delay` (DKtree_delay.hpp:111-118). -/
def unionMove (o : HD) : Res HD :=
  if o.uprev < RS then do
    let p ← rd o.g.ps o.uprev
    let ps ← wr o.g.ps o.ufinal p
    let ps ← wr ps o.uprev none
    .ok { o with g := { o.g with ps := ps }, ui := o.ui + 1 }
  else do
    let ps ← wr o.g.ps o.ufinal o.tmp
    .ok { o with g := { o.g with ps := ps }, tmp := none, ui := o.ui + 1 }

/-- The loop of `union_delay` (DKtree_delay.hpp:97-110): `unionOp` works in place. -/
def unionLoop (K : K2Impl) : Nat → Heap K → HD → Res (Heap K × HD)
  | 0, h, o => do
    let o ← o.unionMove
    .ok (h, o)
  | f + 1, h, o => do
    let q ← rd o.g.ps o.ui
    match q with
    | none => unionLoop K f h { o with ui := o.ui + 1 }
    | some a =>
      if o.uprev < RS then do
        let p ← rd o.g.ps o.uprev
        let b ← use p
        let t ← rd h a
        let u ← rd h b
        let h ← wr h a (K.union t u)
        let ps ← wr o.g.ps o.uprev none
        .ok (h, { o with g := { o.g with ps := ps }, uprev := o.ui, ui := o.ui + 1 })
      else do
        let b ← use o.tmp
        let t ← rd h a
        let u ← rd h b
        let h ← wr h a (K.union t u)
        .ok (h, { o with tmp := none, uprev := o.ui, ui := o.ui + 1 })

/-- `union_delay()` (DKtree_delay.hpp:96-119). -/
def unionDelay (h : Heap K) (o : HD) : Res (Heap K × HD) := unionLoop K (o.ufinal + 1 - o.ui) h o

/-- `contains(x,y)` (DKtree_delay.hpp:184-201). -/
def contains (h : Heap K) (o : HD) (e : Edge) : Res Bool := HG.contains h o.g e

/-- The flush branch of `add_edge` (DKtree_delay.hpp:139-169, 181): `make_shared` allocates. -/
def flush (S : Sizing) (h : Heap K) (o : HD) (e : Edge) : Res (Heap K × HD) := do
  let l ← HG.selectLevel K S (max o.g.nv o.g.nTotal) h o.g.ps 0 (S.maxsz (max o.g.nv o.g.nTotal) 0)
  match l with
  | none => .throws
  | some i => do
    let conv ← o.g.c0.converted
    let c ← o.g.c0.clean
    let r ← unionDelay (h ++ [K.build (conv ++ [e]) o.g.nv])
      ⟨{ o.g with maxR := max i o.g.maxR, c0 := c }, 0, RS, i, some h.length⟩
    .ok (r.1, { r.2 with g := { r.2.g with nTotal := r.2.g.nTotal + 1 } })

/-- The step at the start of `add_edge` (DKtree_delay.hpp:126-127). -/
def pre (h : Heap K) (o : HD) : Res (Heap K × HD) := if o.workDone then .ok (h, o) else unionDelay h o

/-- `add_edge(x,y)` (DKtree_delay.hpp:125-182). -/
def addEdge (nd : Bool) (S : Sizing) (h : Heap K) (o : HD) (e : Edge) : Res (Heap K × HD) := do
  let r ← pre h o
  let b ← contains r.1 r.2 e
  if b then .ok r
  else if r.2.g.c0.size < S.maxsz (max r.2.g.nv r.2.g.nTotal) 0 then do
    let c ← r.2.g.c0.insert S e r.2.g.nTotal
    .ok (r.1, { r.2 with g := { r.2.g with c0 := c, nTotal := r.2.g.nTotal + 1 } })
  else if r.2.workDone then flush S r.1 r.2 e
  else if nd then .ok (r.1, { r.2 with g := { r.2.g with nTotal := r.2.g.nTotal + 1 } })
  else .abort

/-- The loop of `del_edge` (DKtree_delay.hpp:209-222): `erase` works in place; found, `n_total_marked`, the heap, the
pointers. -/
def eraseFirst (K : K2Impl) (e : Edge) : Heap K → List (Option Nat) → Res (Bool × Nat × Heap K × List (Option Nat))
  | h, [] => .ok (false, 0, h, [])
  | h, none :: ps => do
    let r ← eraseFirst K e h ps
    .ok (r.1, r.2.1, r.2.2.1, none :: r.2.2.2)
  | h, some p :: ps => do
    let t ← rd h p
    let h ← wr h p (K.erase t e).2
    if (K.erase t e).1 then
      if K.marked (K.erase t e).2 = K.total (K.erase t e).2 then .ok (true, 0, h, none :: ps)
      else .ok (true, K.marked (K.erase t e).2, h, some p :: ps)
    else do
      let r ← eraseFirst K e h ps
      .ok (r.1, r.2.1, r.2.2.1, some p :: r.2.2.2)

/-- The first tree of the rebuild (DKtree_delay.hpp:234-250), allocated. -/
def rebuildTmp (h : Heap K) (o : HG) : Res (Heap K × C0) :=
  if o.c0.size = 0 then .ok (h ++ [K.empty o.nv], o.c0)
  else do
    let conv ← o.c0.converted
    let c ← o.c0.clean
    .ok (h ++ [K.build conv o.nv], c)

/-- The rebuild branch of `del_edge` (DKtree_delay.hpp:225-257). -/
def rebuild (S : Sizing) (h : Heap K) (o : HG) : Res (Heap K × HG) := do
  let l ← HG.selectLevel K S (max o.nv o.nTotal) h o.ps 0 (S.maxsz (max o.nv o.nTotal) 0)
  match l with
  | none => .ub
  | some i => do
    let r ← rebuildTmp h o
    let m ← HG.mergeUpTo K h.length (i + 1) r.1 o.ps
    .ok (m.1, { o with c0 := r.2, ps := m.2.set i (some h.length) })

/-- `del_edge(x,y)` (DKtree_delay.hpp:203-260). -/
def delEdge (S : Sizing) (h : Heap K) (o : HD) (e : Edge) : Res (Heap K × HD) := do
  let r ← o.g.c0.erase e
  if r.1 then .ok (h, { o with g := { o.g with c0 := r.2, nTotal := decr o.g.nTotal } })
  else do
    let a ← eraseFirst K e h o.g.ps
    let g : HG := { o.g with c0 := r.2, ps := a.2.2.2, nTotal := if a.1 then decr o.g.nTotal else o.g.nTotal }
    if S.rebuild a.2.1 g.nTotal then do
      let z ← rebuild S a.2.2.1 g
      .ok (z.1, { o with g := z.2 })
    else .ok (a.2.2.1, { o with g := g })

/-- `list_neighbour(x)` (DKtree_delay.hpp:262-282). -/
def listNeighbour (h : Heap K) (o : HD) (x : Nat) : Res (List Nat) := HG.listNeighbour h o.g x

/-- One user call. -/
def step (nd : Bool) (S : Sizing) (h : Heap K) (o : HD) : Op → Res (Heap K × HD)
  | .add e => addEdge nd S h o e
  | .del e => delEdge S h o e

/-- The graph as a value. -/
def view (h : Heap K) (o : HD) : DKD K :=
  ⟨HG.view h o.g, o.ui, o.uprev, o.ufinal, o.tmp.bind (fun a => h[a]?)⟩

/-- All pointers of the object. -/
def ptrs (o : HD) : List (Option Nat) := o.tmp :: o.g.ps

/-! ## An object that shares no tree behaves as the value -/

open HG

theorem filterMap_nodup_iff {ps : List (Option Nat)} : (ps.filterMap id).Nodup ↔
    ∀ (i j : Nat) (a : Nat), ps[i]? = some (some a) → ps[j]? = some (some a) → i = j := by
  induction ps with
  | nil => simp
  | cons p ps ih =>
    have hmem : ∀ a, a ∈ ps.filterMap id ↔ ∃ j : Nat, ps[j]? = some (some a) := by
      intro a
      rw [List.mem_filterMap]
      constructor
      · rintro ⟨x, h1, h2⟩
        obtain ⟨j, hj⟩ := List.mem_iff_getElem?.1 h1
        exact ⟨j, by rw [hj]; exact congrArg some h2⟩
      · rintro ⟨j, hj⟩
        exact ⟨some a, List.mem_iff_getElem?.2 ⟨j, hj⟩, rfl⟩
    cases p with
    | none =>
      rw [show (none :: ps).filterMap id = ps.filterMap id from rfl, ih]
      constructor
      · intro h i j a hi hj
        cases i with
        | zero => simp at hi
        | succ i =>
          cases j with
          | zero => simp at hj
          | succ j => rw [h i j a (by simpa using hi) (by simpa using hj)]
      · intro h i j a hi hj
        have := h (i + 1) (j + 1) a (by simpa using hi) (by simpa using hj)
        omega
    | some b =>
      rw [show (some b :: ps).filterMap id = b :: ps.filterMap id from rfl, List.nodup_cons, ih, hmem]
      constructor
      · rintro ⟨h0, h⟩ i j a hi hj
        cases i with
        | zero =>
          cases j with
          | zero => rfl
          | succ j =>
            simp at hi hj
            subst hi
            exact absurd ⟨j, hj⟩ h0
        | succ i =>
          cases j with
          | zero =>
            simp at hi hj
            subst hj
            exact absurd ⟨i, hi⟩ h0
          | succ j => rw [h i j a (by simpa using hi) (by simpa using hj)]
      · intro h
        refine ⟨?_, ?_⟩
        · rintro ⟨j, hj⟩
          have := h 0 (j + 1) b (by simp) (by simpa using hj)
          omega
        · intro i j a hi hj
          have := h (i + 1) (j + 1) a (by simpa using hi) (by simpa using hj)
          omega

/-- Moving a pointer to another level and resetting it keeps the pointers distinct. -/
theorem Own.move {h : Heap K} {q : Option Nat} {ps : List (Option Nat)} {i j : Nat} {p : Option Nat} (ho : Own h (q :: ps))
    (hp : ps[i]? = some p) : Own h (q :: (ps.set j p).set i none) := by
  have hget : ∀ (x : Nat) (a : Nat), ((ps.set j p).set i none)[x]? = some (some a) → x ≠ i ∧
      ((x = j ∧ ps[i]? = some (some a)) ∨ (x ≠ j ∧ ps[x]? = some (some a))) := by
    intro x a hx
    by_cases hxi : x = i
    · subst hxi
      rw [List.getElem?_set_self' ] at hx
      cases hy : (ps.set j p)[x]? with
      | none => rw [hy] at hx; simp at hx
      | some y => rw [hy] at hx; simp at hx
    · rw [List.getElem?_set_ne (fun he => hxi he.symm)] at hx
      refine ⟨hxi, ?_⟩
      by_cases hxj : x = j
      · subst hxj
        rw [List.getElem?_set_self'] at hx
        cases hy : ps[x]? with
        | none => rw [hy] at hx; simp at hx
        | some y => rw [hy] at hx; simp at hx; exact Or.inl ⟨rfl, by rw [hp, hx]⟩
      · rw [List.getElem?_set_ne (fun he => hxj he.symm)] at hx
        exact Or.inr ⟨hxj, hx⟩
  have hnd := filterMap_nodup_iff.1 ho.nodup
  have hmem : ∀ a, some a ∈ (ps.set j p).set i none → some a ∈ ps := by
    intro a ha
    obtain ⟨x, hx⟩ := List.mem_iff_getElem?.1 ha
    rcases (hget x a hx).2 with ⟨_, h1⟩ | ⟨_, h1⟩
    · exact List.mem_of_getElem? h1
    · exact List.mem_of_getElem? h1
  refine ⟨?_, filterMap_nodup_iff.2 ?_⟩
  · intro a ha
    rcases List.mem_cons.1 ha with h1 | h1
    · exact ho.lt a (by rw [h1]; simp)
    · exact ho.lt a (List.mem_cons_of_mem _ (hmem a h1))
  · intro x y a hx hy
    have conv : ∀ z : Nat, (q :: (ps.set j p).set i none)[z]? = some (some a) →
        (z = 0 ∧ q = some a) ∨ ∃ w, z = w + 1 ∧ ((ps.set j p).set i none)[w]? = some (some a) := by
      intro z hz
      cases z with
      | zero => left; simpa using hz
      | succ w => right; exact ⟨w, rfl, by simpa using hz⟩
    have hq : q = some a → ∀ w : Nat, ((ps.set j p).set i none)[w]? ≠ some (some a) := by
      intro hq w hw
      have h1 := hmem a (List.mem_of_getElem? hw)
      obtain ⟨v, hv⟩ := List.mem_iff_getElem?.1 h1
      have := hnd 0 (v + 1) a (by simpa using hq) (by simpa using hv)
      omega
    rcases conv x hx with ⟨rfl, h1⟩ | ⟨x, rfl, h1⟩ <;> rcases conv y hy with ⟨rfl, h2⟩ | ⟨y, rfl, h2⟩
    · rfl
    · exact absurd h2 (hq h1 y)
    · exact absurd h1 (hq h2 x)
    · clear hx hy
      obtain ⟨hxi, hx⟩ := hget x a h1
      obtain ⟨hyi, hy⟩ := hget y a h2
      have inj : ∀ u v : Nat, ps[u]? = some (some a) → ps[v]? = some (some a) → u = v := by
        intro u v hu hv
        have := hnd (u + 1) (v + 1) a (by simpa using hu) (by simpa using hv)
        omega
      rcases hx with ⟨rfl, hx⟩ | ⟨hxj, hx⟩ <;> rcases hy with ⟨rfl, hy⟩ | ⟨hyj, hy⟩
      · rfl
      · exact absurd (inj y i hy hx) hyi
      · exact absurd (inj x i hx hy) hxi
      · rw [inj x y hx hy]

theorem vw_get {h : Heap K} {ps : List (Option Nat)} {i : Nat} {p : Option Nat} (hp : ps[i]? = some p) :
    (vw h ps)[i]? = some (p.bind (fun a => h[a]?)) := by simp [vw, hp]

theorem vw_get_none {h : Heap K} {ps : List (Option Nat)} {i : Nat} (hp : ps[i]? = none) : (vw h ps)[i]? = none := by
  simp [vw, hp]

theorem vw_length (h : Heap K) (ps : List (Option Nat)) : (vw h ps).length = ps.length := by simp [vw]

theorem vw_set' (h : Heap K) (ps : List (Option Nat)) (i : Nat) (p : Option Nat) :
    vw h (ps.set i p) = (vw h ps).set i (p.bind (fun a => h[a]?)) := by simp [vw, List.map_set]

/-- Changing the tree of one level in place. -/
theorem vw_upd {h : Heap K} {ps : List (Option Nat)} {i a : Nat} (hn : (ps.filterMap id).Nodup)
    (hi : ps[i]? = some (some a)) (hlt : a < h.length) (t : K.T) : vw (h.set a t) ps = (vw h ps).set i (some t) := by
  have hu := filterMap_nodup_iff.1 hn
  apply List.ext_getElem?
  intro j
  by_cases hj : j = i
  · subst hj
    rw [vw_get hi, List.getElem?_set_self (by rw [vw_length]; exact (List.getElem?_eq_some_iff.1 hi).1)]
    simp [hlt]
  · rw [List.getElem?_set_ne (fun he => hj he.symm)]
    cases hp : ps[j]? with
    | none => rw [vw_get_none hp, vw_get_none hp]
    | some p =>
      rw [vw_get hp, vw_get hp]
      cases p with
      | none => rfl
      | some b =>
        have : b ≠ a := by rintro rfl; exact hj (hu j i b hp hi)
        simp [List.getElem?_set_ne (Ne.symm this)]

theorem Own.cons_none {h : Heap K} {q : Option Nat} {ps : List (Option Nat)} (ho : Own h (q :: ps)) : Own h (none :: ps) :=
  ⟨fun a ha => ho.lt a (List.mem_cons_of_mem _ (by simpa using ha)), by simpa using ho.tail.nodup⟩

theorem Own.of_none {h : Heap K} {ps : List (Option Nat)} (ho : Own h ps) : Own h (none :: ps) :=
  ⟨fun a ha => ho.lt a (by simpa using ha), by simpa using ho.nodup⟩

/-- Moving `tmp` into a level. -/
theorem Own.move_tmp {h : Heap K} {q : Option Nat} {ps : List (Option Nat)} (j : Nat) (ho : Own h (q :: ps)) :
    Own h (none :: ps.set j q) := by
  cases q with
  | none =>
    refine Own.of_none (ho.tail.sub ?_)
    clear ho
    induction ps generalizing j with
    | nil => exact .nil
    | cons p ps ih =>
      cases j with
      | zero => exact .cons (Or.inl rfl) (Sub.refl _)
      | succ j => exact .cons (Or.inr rfl) (ih j)
  | some a => exact Own.of_none (ho.tail.set (ho.lt a (by simp)) ho.notMem)

/-- Resetting a level. -/
theorem sub_reset (ps : List (Option Nat)) (j : Nat) : Sub (ps.set j none) ps := by
  induction ps generalizing j with
  | nil => exact .nil
  | cons p ps ih =>
    cases j with
    | zero => exact .cons (Or.inl rfl) (Sub.refl _)
    | succ j => exact .cons (Or.inr rfl) (ih j)

theorem unionMove_rel {h : Heap K} {o : HD} (ho : Own h o.ptrs) :
    Res.Rel (fun (o' : HD) (d : DKD K) => d = view h o' ∧ Own h o'.ptrs ∧ ∀ a, some a ∈ o'.ptrs → some a ∈ o.ptrs)
      o.unionMove (view h o).unionMove := by
  unfold unionMove DKD.unionMove
  by_cases hu : o.uprev < RS
  · rw [if_pos hu, if_pos (show (view h o).uprev < RS from hu)]
    cases hp : o.g.ps[o.uprev]? with
    | none =>
      have e1 : rd o.g.ps o.uprev = .ub := by unfold rd; rw [hp]
      have e2 : rd (view h o).g.ks (view h o).uprev = .ub := by
        unfold rd; rw [show (view h o).g.ks[(view h o).uprev]? = none from vw_get_none hp]
      rw [e1, e2]; exact .ub
    | some p =>
      rw [rd_of hp, rd_of (show (view h o).g.ks[(view h o).uprev]? = some (p.bind (fun a => h[a]?)) from vw_get hp),
        Res.ok_bind, Res.ok_bind]
      have hlen : (view h o).g.ks.length = o.g.ps.length := vw_length _ _
      by_cases hf : o.ufinal < o.g.ps.length
      · have hx : o.uprev < o.g.ps.length := (List.getElem?_eq_some_iff.1 hp).1
        rw [wr_of hf, wr_of (show (view h o).ufinal < (view h o).g.ks.length by rw [hlen]; exact hf), Res.ok_bind,
          Res.ok_bind, wr_of (by simpa using hx), wr_of (show (view h o).uprev < _ by
            rw [List.length_set, hlen]; exact hx)]
        simp only [Res.ok_bind]
        refine .ok ⟨?_, Own.move ho hp, ?_⟩
        · simp only [view, HG.view, vw_set']
          rfl
        · intro a ha
          rcases List.mem_cons.1 ha with h1 | h1
          · exact h1 ▸ List.mem_cons_self
          · refine List.mem_cons_of_mem _ ?_
            rcases List.mem_or_eq_of_mem_set h1 with h2 | h2
            · rcases List.mem_or_eq_of_mem_set h2 with h3 | h3
              · exact h3
              · rw [h3]; exact List.mem_of_getElem? hp
            · cases h2
      · have e1 : wr o.g.ps o.ufinal p = .ub := by unfold wr; rw [if_neg hf]
        have e2 : wr (view h o).g.ks (view h o).ufinal (p.bind (fun a => h[a]?)) = .ub := by
          unfold wr; rw [if_neg (by rw [hlen]; exact hf)]
        rw [e1, e2]; exact .ub
  · rw [if_neg hu, if_neg (show ¬ (view h o).uprev < RS from hu)]
    refine Res.Rel.bind (wr_rel (vw_length h o.g.ps).symm o.ufinal o.tmp ((view h o).tmp)) ?_
    rintro ps ks ⟨h1, h2, h3⟩
    subst h2 h3
    refine .ok ⟨?_, Own.move_tmp _ ho, ?_⟩
    · simp only [view, HG.view, vw_set']
      rfl
    · intro a ha
      rcases List.mem_cons.1 ha with h2 | h2
      · cases h2
      · rcases List.mem_or_eq_of_mem_set h2 with h3 | h3
        · exact List.mem_cons_of_mem _ h3
        · rw [h3]; exact List.mem_cons_self

/-- What one call may do: the object becomes the new value, owns its trees, changed no tree of others. -/
def After (h : Heap K) (o : HD) (r : Heap K × HD) (d : DKD K) : Prop :=
  d = view r.1 r.2 ∧ Own r.1 r.2.ptrs ∧ Frame o.ptrs h r.1 ∧ ∀ a, some a ∈ r.2.ptrs → some a ∈ o.ptrs ∨ h.length ≤ a

theorem After.trans {h h' : Heap K} {o o' : HD} {r : Heap K × HD} {d : DKD K} (hf : Frame o.ptrs h h')
    (hp : ∀ a, some a ∈ o'.ptrs → some a ∈ o.ptrs ∨ h.length ≤ a) (ha : After h' o' r d) : After h o r d := by
  obtain ⟨a1, a2, a3, a4⟩ := ha
  refine ⟨a1, a2, ⟨hf.len.trans a3.len, ?_⟩, ?_⟩
  · intro a hl hn
    rw [a3.same a (lt_of_lt_of_le hl hf.len) (fun hm => by
      rcases hp a hm with h1 | h1
      · exact hn h1
      · omega)]
    exact hf.same a hl hn
  · intro a hm
    rcases a4 a hm with h1 | h1
    · exact hp a h1
    · exact Or.inr (le_trans hf.len h1)

theorem unionLoop_rel (f : Nat) : ∀ {h : Heap K} {o : HD}, Own h o.ptrs →
    Res.Rel (After h o) (unionLoop K f h o) (DKD.unionLoop f (view h o)) := by
  induction f with
  | zero =>
    intro h o ho
    unfold unionLoop DKD.unionLoop
    have hb : (view h o).unionMove = ((view h o).unionMove >>= fun d => .ok d) := by
      cases (view h o).unionMove <;> rfl
    rw [hb]
    refine Res.Rel.bind (unionMove_rel ho) ?_
    rintro o' d ⟨h1, h2, h3⟩
    exact .ok ⟨h1, h2, Frame.refl _ _, fun a ha => Or.inl (h3 a ha)⟩
  | succ f ih =>
    intro h o ho
    unfold unionLoop DKD.unionLoop
    cases hq : o.g.ps[o.ui]? with
    | none =>
      have e1 : rd o.g.ps o.ui = .ub := by unfold rd; rw [hq]
      have e2 : rd (view h o).g.ks (view h o).ui = .ub := by
        unfold rd; rw [show (view h o).g.ks[(view h o).ui]? = none from vw_get_none hq]
      rw [e1, e2]; exact .ub
    | some q =>
      rw [rd_of hq, rd_of (show (view h o).g.ks[(view h o).ui]? = some (q.bind (fun a => h[a]?)) from vw_get hq),
        Res.ok_bind, Res.ok_bind]
      cases q with
      | none =>
        simp only [Option.bind_none]
        exact ih (o := { o with ui := o.ui + 1 }) ho
      | some a =>
        have hm : some a ∈ o.g.ps := List.mem_of_getElem? hq
        have hlt : a < h.length := ho.lt a (List.mem_cons_of_mem _ hm)
        obtain ⟨t, ht⟩ : ∃ t, h[a]? = some t := ⟨_, List.getElem?_eq_getElem hlt⟩
        have hnd := ho.tail.nodup
        have hix : o.ui < o.g.ps.length := (List.getElem?_eq_some_iff.1 hq).1
        simp only [Option.bind_some, ht]
        by_cases hu : o.uprev < RS
        · rw [if_pos hu, if_pos (show (view h o).uprev < RS from hu)]
          cases hp : o.g.ps[o.uprev]? with
          | none =>
            have e1 : rd o.g.ps o.uprev = .ub := by unfold rd; rw [hp]
            have e2 : rd (view h o).g.ks (view h o).uprev = .ub := by
              unfold rd; rw [show (view h o).g.ks[(view h o).uprev]? = none from vw_get_none hp]
            rw [e1, e2]; exact .ub
          | some p =>
            rw [rd_of hp, rd_of (show (view h o).g.ks[(view h o).uprev]? = some (p.bind (fun a => h[a]?)) from vw_get hp),
              Res.ok_bind, Res.ok_bind]
            cases p with
            | none => exact .ub
            | some b =>
              have hmb : some b ∈ o.g.ps := List.mem_of_getElem? hp
              have hltb : b < h.length := ho.lt b (List.mem_cons_of_mem _ hmb)
              obtain ⟨u, hub⟩ : ∃ u, h[b]? = some u := ⟨_, List.getElem?_eq_getElem hltb⟩
              have hux : o.uprev < o.g.ps.length := (List.getElem?_eq_some_iff.1 hp).1
              simp only [Option.bind_some, hub, use, Res.ok_bind, rd_of ht, rd_of hub, wr_of hlt, wr_of hux]
              rw [wr_of (show (view h o).ui < (view h o).g.ks.length by
                show o.ui < (vw h o.g.ps).length; rw [vw_length]; exact hix), Res.ok_bind,
                wr_of (show (view h o).uprev < ((view h o).g.ks.set (view h o).ui (some (K.union t u))).length by
                rw [List.length_set]; show o.uprev < (vw h o.g.ps).length; rw [vw_length]; exact hux), Res.ok_bind]
              have htmp : (o.tmp.bind fun a' => (h.set a (K.union t u))[a']?) = o.tmp.bind fun a' => h[a']? := by
                cases hto : o.tmp with
                | none => rfl
                | some c =>
                  have : c ≠ a := by
                    rintro rfl
                    have h9 := ho
                    unfold ptrs at h9
                    rw [hto] at h9
                    exact h9.notMem hm
                  simp [List.getElem?_set_ne (Ne.symm this)]
              refine .ok ⟨?_, ?_, Frame.set (List.mem_cons_of_mem _ hm) _, ?_⟩
              · simp only [view, HG.view, vw_set', vw_upd hnd hq hlt, htmp]
                rfl
              · have : Own h (o.tmp :: o.g.ps.set o.uprev none) := by
                  have h9 := Own.sub ho (qs := o.tmp :: o.g.ps.set o.uprev none) (.cons (Or.inr rfl) (sub_reset _ _))
                  exact h9
                exact this.len (by simp)
              · intro x hx
                rcases List.mem_cons.1 hx with h1 | h1
                · exact Or.inl (h1 ▸ List.mem_cons_self)
                · exact Or.inl (List.mem_cons_of_mem _ ((sub_reset _ _).mem h1))
        · rw [if_neg hu, if_neg (show ¬ (view h o).uprev < RS from hu)]
          cases hto : o.tmp with
          | none =>
            simp only [view, hto, Option.bind_none, use]
            exact .ub
          | some b =>
            have h9 := ho
            unfold ptrs at h9
            rw [hto] at h9
            have hltb : b < h.length := h9.lt b (by simp)
            obtain ⟨u, hub⟩ : ∃ u, h[b]? = some u := ⟨_, List.getElem?_eq_getElem hltb⟩
            have hvt : (view h o).tmp = some u := by simp [view, hto, hub]
            rw [hvt]
            simp only [use, Res.ok_bind, rd_of ht, rd_of hub, wr_of hlt]
            rw [wr_of (show (view h o).ui < (view h o).g.ks.length by
                show o.ui < (vw h o.g.ps).length; rw [vw_length]; exact hix), Res.ok_bind]
            refine .ok ⟨?_, ?_, Frame.set (List.mem_cons_of_mem _ hm) _, ?_⟩
            · simp only [view, HG.view, vw_upd hnd hq hlt, Option.bind_none]
            · exact (Own.cons_none h9).len (by simp)
            · intro x hx
              rcases List.mem_cons.1 hx with h1 | h1
              · cases h1
              · exact Or.inl (List.mem_cons_of_mem _ h1)

theorem pre_rel {h : Heap K} {o : HD} (ho : Own h o.ptrs) : Res.Rel (After h o) (pre h o) (view h o).pre := by
  unfold pre DKD.pre
  rw [show (view h o).workDone = o.workDone from rfl]
  split
  · exact .ok ⟨rfl, ho, Frame.refl _ _, fun a ha => Or.inl ha⟩
  · exact unionLoop_rel _ ho

theorem flush_rel (S : Sizing) {h : Heap K} {o : HD} (ho : Own h o.ptrs) (e : Edge) :
    Res.Rel (After h o) (flush S h o e) ((view h o).flush S e) := by
  unfold flush DKD.flush
  rw [selectLevel_eq ho.tail, Res.ok_bind]
  show Res.Rel _ _ (match DK.selectLevel K S (max o.g.nv o.g.nTotal) (vw h o.g.ps) 0
    (S.maxsz (max o.g.nv o.g.nTotal) 0) with | none => _ | some i => _)
  cases DK.selectLevel K S (max o.g.nv o.g.nTotal) (vw h o.g.ps) 0 (S.maxsz (max o.g.nv o.g.nTotal) 0) with
  | none => exact .throws
  | some i =>
    simp only
    refine Res.Rel.bind (R := fun a b => a = b) (Res.Rel.refl (fun _ => rfl) _) ?_
    rintro conv _ rfl
    refine Res.Rel.bind (R := fun a b => a = b) (Res.Rel.refl (fun _ => rfl) _) ?_
    rintro c _ rfl
    have hn : some h.length ∉ o.g.ps := fun hm => lt_irrefl _ (ho.lt _ (List.mem_cons_of_mem _ hm))
    have hv : vw (h ++ [K.build (conv ++ [e]) o.g.nv]) o.g.ps = vw h o.g.ps :=
      vw_congr fun a ha => List.getElem?_append_left (ho.lt a (List.mem_cons_of_mem _ ha))
    have ho' : Own (h ++ [K.build (conv ++ [e]) o.g.nv])
        (HD.mk { o.g with maxR := max i o.g.maxR, c0 := c } 0 RS i (some h.length)).ptrs := by
      refine ⟨?_, ?_⟩
      · intro a ha
        rcases List.mem_cons.1 ha with h1 | h1
        · cases h1; simp
        · have := ho.lt a (List.mem_cons_of_mem _ h1)
          simp; omega
      · show ((some h.length :: o.g.ps).filterMap id).Nodup
        rw [show (some h.length :: o.g.ps).filterMap id = h.length :: o.g.ps.filterMap id from rfl, List.nodup_cons]
        refine ⟨?_, ho.tail.nodup⟩
        intro hm
        obtain ⟨q, h1, h2⟩ := List.mem_filterMap.1 hm
        exact hn (by rw [← (show q = some h.length from h2)]; exact h1)
    have hvw : view (h ++ [K.build (conv ++ [e]) o.g.nv])
        (HD.mk { o.g with maxR := max i o.g.maxR, c0 := c } 0 RS i (some h.length)) =
        ⟨{ (view h o).g with maxR := max i (view h o).g.maxR, c0 := c }, 0, RS, i,
          some (K.build (conv ++ [e]) (view h o).g.nv)⟩ := by
      simp [view, HG.view, hv]
    have hrel := unionLoop_rel (i + 1 - 0) ho'
    rw [hvw] at hrel
    refine Res.Rel.bind hrel ?_
    rintro ⟨h', o'⟩ d hA
    have hA' := After.trans (h := h) (o := o) (Frame.push _ _ _) (by
      intro a ha
      rcases List.mem_cons.1 ha with h1 | h1
      · cases h1; exact Or.inr (le_refl _)
      · exact Or.inl (List.mem_cons_of_mem _ h1)) hA
    obtain ⟨a1, a2, a3, a4⟩ := hA'
    refine .ok ⟨?_, a2, a3, a4⟩
    rw [a1]; rfl

theorem addEdge_rel (nd : Bool) (S : Sizing) {h : Heap K} {o : HD} (ho : Own h o.ptrs) (e : Edge) :
    Res.Rel (After h o) (addEdge nd S h o e) ((view h o).addEdge nd S e) := by
  unfold addEdge DKD.addEdge
  refine Res.Rel.bind (pre_rel ho) ?_
  rintro ⟨h', o'⟩ d ⟨a1, a2, a3, a4⟩
  simp only at a1 a2 a3 a4 ⊢
  subst a1
  rw [show contains h' o' e = (view h' o').contains e from HG.contains_eq a2.tail e]
  refine Res.Rel.bind (R := fun a b => a = b) (Res.Rel.refl (fun _ => rfl) _) ?_
  rintro b _ rfl
  have hok : After h o (h', o') (view h' o') := ⟨rfl, a2, a3, a4⟩
  cases b with
  | true => exact .ok hok
  | false =>
    simp only [Bool.false_eq_true, if_false]
    show Res.Rel _ _ (if o'.g.c0.size < S.maxsz (max o'.g.nv o'.g.nTotal) 0 then _ else
      if o'.workDone = true then _ else if nd = true then _ else _)
    split
    · refine Res.Rel.bind (R := fun a b => a = b) (Res.Rel.refl (fun _ => rfl) _) ?_
      rintro c _ rfl
      exact .ok ⟨rfl, a2, a3, a4⟩
    · split
      · exact (flush_rel S a2 e).mono fun r d hA => After.trans a3 a4 hA
      · split
        · exact .ok ⟨rfl, a2, a3, a4⟩
        · exact .abort

theorem eraseFirst_ok {e : Edge} : ∀ {ps : List (Option Nat)} {h : Heap K}, Own h ps →
    ∃ h' qs, eraseFirst K e h ps = .ok ((DKD.eraseFirst K e (vw h ps)).1, (DKD.eraseFirst K e (vw h ps)).2.1, h', qs) ∧
      vw h' qs = (DKD.eraseFirst K e (vw h ps)).2.2 ∧ Sub qs ps ∧ Frame ps h h' ∧ h'.length = h.length := by
  intro ps
  induction ps with
  | nil => intro h _; exact ⟨h, [], rfl, rfl, .nil, Frame.refl _ _, rfl⟩
  | cons p ps ih =>
    intro h ho
    cases p with
    | none =>
      obtain ⟨h', qs, h1, h2, h3, h4, h5⟩ := ih ho.tail
      refine ⟨h', none :: qs, ?_, ?_, .cons (Or.inl rfl) h3, h4.mono fun x hx => List.mem_cons_of_mem _ hx, h5⟩
      · simp only [eraseFirst, h1, Res.ok_bind, vw_none, DKD.eraseFirst]
      · simp only [vw_none, DKD.eraseFirst, h2]
    | some a =>
      obtain ⟨t, ht⟩ := ho.get
      have hlt : a < h.length := (List.getElem?_eq_some_iff.1 ht).1
      have hv : vw (h.set a (K.erase t e).2) ps = vw h ps :=
        vw_congr fun b hb => List.getElem?_set_ne (by rintro rfl; exact ho.notMem hb)
      have hget : (h.set a (K.erase t e).2)[a]? = some (K.erase t e).2 := by simp [hlt]
      have hfr : Frame (some a :: ps) h (h.set a (K.erase t e).2) := Frame.set (by simp) _
      rw [vw_some ht]
      simp only [eraseFirst, DKD.eraseFirst, rd_of ht, wr_of hlt, Res.ok_bind]
      by_cases hb : (K.erase t e).1 = true
      · simp only [hb, if_true]
        by_cases hmk : K.marked (K.erase t e).2 = K.total (K.erase t e).2
        · simp only [hmk, if_true]
          exact ⟨_, _, rfl, by rw [vw_none, hv], .cons (Or.inl rfl) (Sub.refl _), hfr, by simp⟩
        · simp only [hmk, if_false]
          exact ⟨_, _, rfl, by rw [vw_some hget, hv], Sub.refl _, hfr, by simp⟩
      · simp only [hb, if_false, Bool.false_eq_true]
        obtain ⟨h', qs, h1, h2, h3, h4, h5⟩ := ih (h := h.set a (K.erase t e).2) (ho.tail.len (by simp))
        rw [hv] at h1 h2
        have hget' : h'[a]? = some (K.erase t e).2 := by
          rw [h4.same a (by simpa using hlt) ho.notMem, hget]
        refine ⟨h', some a :: qs, by rw [h1]; rfl, ?_, .cons (Or.inr rfl) h3,
          hfr.trans (h4.mono fun x hx => List.mem_cons_of_mem _ hx), by rw [h5]; simp⟩
        rw [vw_some hget', h2]

theorem rebuildTmp_rel {h : Heap K} {o : HG} :
    Res.Rel (fun (r : Heap K × C0) (s : K.T × C0) => r.1 = h ++ [s.1] ∧ r.2 = s.2) (rebuildTmp h o)
      (DKD.rebuildTmp (HG.view h o)) := by
  unfold rebuildTmp DKD.rebuildTmp
  show Res.Rel _ _ (if o.c0.size = 0 then _ else _)
  split
  · exact .ok ⟨rfl, rfl⟩
  · refine Res.Rel.bind (R := fun a b => a = b) (Res.Rel.refl (fun _ => rfl) _) ?_
    rintro conv _ rfl
    refine Res.Rel.bind (R := fun a b => a = b) (Res.Rel.refl (fun _ => rfl) _) ?_
    rintro c _ rfl
    exact .ok ⟨rfl, rfl⟩

theorem rebuild_rel (S : Sizing) {h : Heap K} {o : HG} (ho : Own h o.ps) :
    Res.Rel (HG.After h o) (rebuild S h o) (DKD.rebuild S (HG.view h o)) := by
  unfold rebuild DKD.rebuild
  rw [selectLevel_eq ho, Res.ok_bind]
  show Res.Rel _ _ (match DK.selectLevel K S (max o.nv o.nTotal) (vw h o.ps) 0
    (S.maxsz (max o.nv o.nTotal) 0) with | none => _ | some i => _)
  cases DK.selectLevel K S (max o.nv o.nTotal) (vw h o.ps) 0 (S.maxsz (max o.nv o.nTotal) 0) with
  | none => exact .ub
  | some i =>
    simp only
    refine Res.Rel.bind rebuildTmp_rel ?_
    rintro ⟨hh, c⟩ ⟨t, c'⟩ ⟨h1, h2⟩
    simp only at h1 h2
    subst h1 h2
    have hn : some h.length ∉ o.ps := fun hm => lt_irrefl _ (ho.lt _ hm)
    have hp : Frame o.ps h (h ++ [t]) := Frame.push _ _ _
    have hv : vw (h ++ [t]) o.ps = vw h o.ps := vw_congr fun a ha => List.getElem?_append_left (ho.lt a ha)
    obtain ⟨h', qs, h1, h2, h3, h4, h5, h6⟩ := mergeUpTo_ok (n := i + 1) (ho.len hp.len) hn (t := t) (by simp)
    rw [hv] at h2 h3
    simp only [h1, Res.ok_bind]
    have hlen : h.length < h'.length := by rw [h5]; simp
    have hq : some h.length ∉ qs := fun hm => hn (h4.mem hm)
    refine .ok ⟨?_, ?_, ⟨le_of_lt hlen, ?_⟩, ?_⟩
    · simp only [HG.view, vw_set h' h3, h2]
    · exact (((ho.len hp.len).sub h4).len h5.ge).set hlen hq
    · intro a ha hna
      rw [h6 a (ne_of_lt ha), hp.same a ha hna]
    · intro a ha
      rcases List.mem_or_eq_of_mem_set ha with hx | hx
      · exact Or.inl (h4.mem hx)
      · injection hx with hx; exact Or.inr hx.ge

/-- `tmp` is not affected by what happens to the levels. -/
theorem with_tmp {h h' : Heap K} {q : Option Nat} {ps ps' : List (Option Nat)} (ho : Own h (q :: ps)) (ho' : Own h' ps')
    (hf : Frame ps h h') (hp : ∀ a, some a ∈ ps' → some a ∈ ps ∨ h.length ≤ a) :
    Own h' (q :: ps') ∧ (q.bind fun a => h'[a]?) = (q.bind fun a => h[a]?) := by
  cases q with
  | none => exact ⟨Own.of_none ho', rfl⟩
  | some c =>
    have hc : c < h.length := ho.lt c (by simp)
    have hn : some c ∉ ps' := by
      intro hm
      rcases hp c hm with h1 | h1
      · exact ho.notMem h1
      · omega
    refine ⟨⟨?_, ?_⟩, hf.same c hc ho.notMem⟩
    · intro a ha
      rcases List.mem_cons.1 ha with h1 | h1
      · cases h1; exact lt_of_lt_of_le hc hf.len
      · exact ho'.lt a h1
    · rw [show (some c :: ps').filterMap id = c :: ps'.filterMap id from rfl, List.nodup_cons]
      refine ⟨fun hm => ?_, ho'.nodup⟩
      obtain ⟨x, h1, h2⟩ := List.mem_filterMap.1 hm
      exact hn (by rw [← (show x = some c from h2)]; exact h1)

theorem after_levels {h h' : Heap K} {o : HD} {g' : HG} (ho : Own h o.ptrs) (ho' : Own h' g'.ps)
    (hf : Frame o.g.ps h h') (hp : ∀ a, some a ∈ g'.ps → some a ∈ o.g.ps ∨ h.length ≤ a) :
    After h o (h', { o with g := g' }) { (view h o) with g := HG.view h' g' } := by
  obtain ⟨h1, h2⟩ := with_tmp ho ho' hf hp
  refine ⟨?_, h1, hf.mono fun x hx => List.mem_cons_of_mem _ hx, ?_⟩
  · simp only [view, h2]
  · intro a ha
    rcases List.mem_cons.1 ha with h3 | h3
    · exact Or.inl (h3 ▸ List.mem_cons_self)
    · exact (hp a h3).imp_left (List.mem_cons_of_mem _)

theorem delEdge_rel (S : Sizing) {h : Heap K} {o : HD} (ho : Own h o.ptrs) (e : Edge) :
    Res.Rel (After h o) (delEdge S h o e) ((view h o).delEdge S e) := by
  unfold delEdge DKD.delEdge
  refine Res.Rel.bind (R := fun a b => a = b) (Res.Rel.refl (fun _ => rfl) _) ?_
  rintro r _ rfl
  by_cases hb : r.1 = true
  · rw [if_pos hb, if_pos hb]
    exact .ok ⟨rfl, ho, Frame.refl _ _, fun a ha => Or.inl ha⟩
  · rw [if_neg hb, if_neg hb]
    obtain ⟨h', qs, h1, h2, h3, h4, h5⟩ := eraseFirst_ok (e := e) ho.tail
    rw [h1, Res.ok_bind]
    have hq : Own h' qs := (ho.tail.sub h3).len h5.ge
    obtain ⟨gn, hgn⟩ : ∃ gn : HG, gn = { o.g with
        c0 := r.2, ps := qs,
        nTotal := if (DKD.eraseFirst K e (vw h o.g.ps)).1 = true then decr o.g.nTotal else o.g.nTotal } := ⟨_, rfl⟩
    have hps : gn.ps = qs := by rw [hgn]
    have hnT : (if (DKD.eraseFirst K e (vw h o.g.ps)).1 = true then decr o.g.nTotal else o.g.nTotal) = gn.nTotal := by
      rw [hgn]
    have hg : (DKD.afterErase { (view h o).g with c0 := r.2 } e).2 = HG.view h' gn := by
      rw [hgn]
      simp only [DKD.afterErase, HG.view, h2, view]
      rfl
    simp only [← hgn]
    rw [show (DKD.afterErase { (view h o).g with c0 := r.2 } e).1 = (DKD.eraseFirst K e (vw h o.g.ps)).2.1 from rfl, hg,
      show (HG.view h' gn).nTotal = gn.nTotal from rfl]
    rw [← hps] at hq h3
    simp only [hnT]
    by_cases hrb : S.rebuild (DKD.eraseFirst K e (vw h o.g.ps)).2.1 gn.nTotal = true
    · rw [if_pos hrb, if_pos hrb]
      refine Res.Rel.bind (rebuild_rel S hq) ?_
      rintro ⟨h'', g''⟩ g ⟨a1, a2, a3, a4⟩
      simp only at a1 a2 a3 a4
      subst a1
      refine .ok (after_levels ho a2 ?_ ?_)
      · exact ⟨h4.len.trans a3.len, fun a hl hn => by
          rw [a3.same a (by omega) (fun hm => hn (h3.mem hm))]
          exact h4.same a hl hn⟩
      · intro a ha
        rcases a4 a ha with h6 | h6
        · exact Or.inl (h3.mem h6)
        · exact Or.inr (by omega)
    · rw [if_neg hrb, if_neg hrb]
      exact .ok (after_levels ho hq h4 (fun a ha => Or.inl (h3.mem ha)))

theorem step_rel (nd : Bool) (S : Sizing) {h : Heap K} {o : HD} (ho : Own h o.ptrs) (op : Op) :
    Res.Rel (After h o) (step nd S h o op) ((view h o).step nd S op) := by
  cases op with
  | add e => exact addEdge_rel nd S ho e
  | del e => exact delEdge_rel S ho e

end HD
end DK2
