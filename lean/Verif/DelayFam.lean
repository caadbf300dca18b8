import Verif.AliasDelay
/-!
# Families of copies of a `DKtree_delay`

Copies share trees (see `AliasDelay`), and a merge through one copy changes a shared tree in place.  What still holds
when every modification is an insertion.
-/

namespace DK2
namespace HD
variable {K : K2Impl}

/-- Every tree is a tree over `n` vertices with edges in `A`. -/
def Cells (n : Nat) (A : Edge → Prop) (h : Heap K) : Prop :=
  ∀ (a : Nat) (t : K.T), h[a]? = some t → K.valid n t ∧ ∀ e ∈ K.edges t, A e

/-- No tree loses an edge. -/
def Grow (h h' : Heap K) : Prop :=
  h.length ≤ h'.length ∧ ∀ (a : Nat) (t : K.T), h[a]? = some t → ∃ t', h'[a]? = some t' ∧ ∀ e ∈ K.edges t, e ∈ K.edges t'

/-- `e` is in a tree that one of the pointers leads to. -/
def InCells (h : Heap K) (ps : List (Option Nat)) (e : Edge) : Prop :=
  ∃ (a : Nat) (t : K.T), some a ∈ ps ∧ h[a]? = some t ∧ e ∈ K.edges t

theorem Grow.refl (h : Heap K) : Grow h h := ⟨le_rfl, fun _ t ht => ⟨t, ht, fun _ he => he⟩⟩

theorem Grow.trans {h h' h'' : Heap K} (a : Grow h h') (b : Grow h' h'') : Grow h h'' := by
  refine ⟨a.1.trans b.1, fun x t ht => ?_⟩
  obtain ⟨t1, h1, h2⟩ := a.2 x t ht
  obtain ⟨t2, h3, h4⟩ := b.2 x t1 h1
  exact ⟨t2, h3, fun e he => h4 e (h2 e he)⟩

theorem Grow.inCells {h h' : Heap K} (g : Grow h h') {ps : List (Option Nat)} {e : Edge} (hi : InCells h ps e) :
    InCells h' ps e := by
  obtain ⟨a, t, h1, h2, h3⟩ := hi
  obtain ⟨t', h4, h5⟩ := g.2 a t h2
  exact ⟨a, t', h1, h4, h5 e h3⟩

theorem Grow.push (h : Heap K) (t : K.T) : Grow h (h ++ [t]) := by
  refine ⟨by simp, fun a u hu => ⟨u, ?_, fun _ he => he⟩⟩
  rw [List.getElem?_append_left (List.getElem?_eq_some_iff.1 hu).1]
  exact hu

theorem Cells.push {n : Nat} {A : Edge → Prop} {h : Heap K} (hc : Cells n A h) {t : K.T} (hv : K.valid n t)
    (he : ∀ e ∈ K.edges t, A e) : Cells n A (h ++ [t]) := by
  intro a u hu
  by_cases ha : a < h.length
  · rw [List.getElem?_append_left ha] at hu
    exact hc a u hu
  · rw [List.getElem?_append_right (by omega)] at hu
    have : a - h.length = 0 := by
      by_contra hx
      rw [List.getElem?_eq_none (by simp; omega)] at hu
      cases hu
    rw [this] at hu
    cases hu
    exact ⟨hv, he⟩

theorem Cells.mono {n : Nat} {A B : Edge → Prop} {h : Heap K} (hc : Cells n A h) (hab : ∀ e, A e → B e) :
    Cells n B h := fun a t ht => ⟨(hc a t ht).1, fun e he => hab e ((hc a t ht).2 e he)⟩

/-- `*a = unionOp(*a, *b)`. -/
theorem union_cells (hK : K.Lawful) {n : Nat} {A : Edge → Prop} {h : Heap K} (hc : Cells n A h) {a b : Nat} {t u : K.T}
    (ha : h[a]? = some t) (hb : h[b]? = some u) :
    Cells n A (h.set a (K.union t u)) ∧ Grow h (h.set a (K.union t u)) ∧
      ∀ e ∈ K.edges u, ∃ t', (h.set a (K.union t u))[a]? = some t' ∧ e ∈ K.edges t' := by
  obtain ⟨v1, e1⟩ := hc a t ha
  obtain ⟨v2, e2⟩ := hc b u hb
  have hu := hK.union_edges n t u v1 v2
  have hlt := (List.getElem?_eq_some_iff.1 ha).1
  refine ⟨?_, ⟨by simp, ?_⟩, ?_⟩
  · intro x s hs
    rw [List.getElem?_set, if_pos hlt] at hs
    split at hs
    · cases hs
      exact ⟨hK.union_valid n t u v1 v2, fun e he => ((hu e).1 he).elim (e1 e) (e2 e)⟩
    · exact hc x s hs
  · intro x s hs
    by_cases hx : a = x
    · subst hx
      rw [ha] at hs; cases hs
      exact ⟨_, by rw [List.getElem?_set_self hlt], fun e he => (hu e).2 (Or.inl he)⟩
    · exact ⟨s, by rw [List.getElem?_set_ne hx]; exact hs, fun _ he => he⟩
  · intro e he
    exact ⟨_, by rw [List.getElem?_set_self hlt], (hu e).2 (Or.inr he)⟩

/-- The pointers between two steps of a merge. -/
structure Ptrs (h : Heap K) (o : HD) : Prop where
  len : o.g.ps.length = RS
  lt : ∀ a, some a ∈ o.g.ps → a < h.length
  fin : o.ui ≤ o.ufinal → o.ufinal < RS
  prev : o.uprev < RS → o.uprev < o.ui
  above : ∀ i a : Nat, o.g.ps[i]? = some (some a) → i ≤ o.g.maxR
  finR : o.ui ≤ o.ufinal → o.ufinal ≤ o.g.maxR ∨ ∀ a, some a ∉ o.g.ps
  src : o.ui ≤ o.ufinal → (∃ a, o.g.ps[o.uprev]? = some (some a)) ∨ (RS ≤ o.uprev ∧ ∀ a, some a ∉ o.g.ps)

theorem Ptrs.grow {h h' : Heap K} {o : HD} (hp : Ptrs h o) (hl : h.length ≤ h'.length) : Ptrs h' o :=
  ⟨hp.len, fun a ha => lt_of_lt_of_le (hp.lt a ha) hl, hp.fin, hp.prev, hp.above, hp.finR, hp.src⟩

theorem mem_set_none {ps : List (Option Nat)} {i a : Nat} (h : some a ∈ ps.set i none) : some a ∈ ps := by
  rcases List.mem_or_eq_of_mem_set h with h | h
  · exact h
  · cases h

theorem get_set_none {ps : List (Option Nat)} {i j a : Nat} (h : (ps.set i none)[j]? = some (some a)) :
    ps[j]? = some (some a) := by
  rw [List.getElem?_set] at h
  split at h
  · split at h <;> cases h
  · exact h

theorem mem_set_of_ne {ps : List (Option Nat)} {i j a : Nat} {p : Option Nat} (h : ps[j]? = some (some a)) (hij : i ≠ j) :
    some a ∈ ps.set i p := by
  refine List.mem_of_getElem? (i := j) ?_
  rw [List.getElem?_set_ne hij]
  exact h

/-- The step of a merge: never undefined, loses nothing, adds nothing. -/
theorem unionLoop_keep (hK : K.Lawful) {n : Nat} {A : Edge → Prop} : ∀ (f : Nat) {h : Heap K} {o : HD},
    Cells n A h → o.g.ps.length = RS → (∀ a, some a ∈ o.g.ps → a < h.length) → (∀ a, o.tmp = some a → a < h.length) →
    o.ufinal < RS → f = o.ufinal + 1 - o.ui → o.ui ≤ o.ufinal + 1 →
    (o.uprev < RS → o.uprev < o.ui ∧ o.tmp = none ∧ ∃ a, o.g.ps[o.uprev]? = some (some a)) →
    (RS ≤ o.uprev → o.tmp ≠ none ∨ ∀ a, some a ∉ o.g.ps) →
    (o.ui = o.ufinal + 1 → o.g.ps[o.ufinal]? = some none) →
    (∀ i a : Nat, o.g.ps[i]? = some (some a) → i ≤ o.g.maxR) →
    (o.ufinal ≤ o.g.maxR ∨ (o.tmp = none ∧ ∀ a, some a ∉ o.g.ps)) →
    ∃ h' o', unionLoop K f h o = .ok (h', o') ∧ Cells n A h' ∧ Grow h h' ∧ Ptrs h' o' ∧ o'.tmp = none ∧
      (∀ e, InCells h (o.tmp :: o.g.ps) e → InCells h' o'.g.ps e) ∧
      o'.g.c0 = o.g.c0 ∧ o'.g.nv = o.g.nv ∧ o'.g.nTotal = o.g.nTotal := by
  intro f
  induction f with
  | zero =>
    intro h o hc hl hlt htl hf hfu hui hprev hno hz hab hfr
    have hui' : o.ui = o.ufinal + 1 := by omega
    have hz' := hz hui'
    by_cases hu : o.uprev < RS
    · obtain ⟨h1, h2, a, ha⟩ := hprev hu
      have hne : o.uprev ≠ o.ufinal := by
        intro hx; rw [hx, hz'] at ha; cases ha
      refine ⟨h, { o with g := { o.g with ps := (o.g.ps.set o.ufinal (some a)).set o.uprev none }, ui := o.ui + 1 },
        ?_, hc, Grow.refl h, ⟨by simp [hl], ?_, ?_, ?_, ?_, ?_, ?_⟩, h2, ?_, rfl, rfl, rfl⟩
      · have w1 : wr o.g.ps o.ufinal (some a) = .ok (o.g.ps.set o.ufinal (some a)) := wr_of (by omega)
        have w2 : wr (o.g.ps.set o.ufinal (some a)) o.uprev none =
          .ok ((o.g.ps.set o.ufinal (some a)).set o.uprev none) := wr_of (by simp; omega)
        simp only [unionLoop, unionMove, if_pos hu, rd_of ha, Res.ok_bind, w1, w2]
      · intro b hb
        rcases List.mem_or_eq_of_mem_set (mem_set_none hb) with hb | hb
        · exact hlt b hb
        · cases hb; exact hlt a (List.mem_of_getElem? ha)
      · intro hx; simp only at hx; omega
      · intro _; simp only; omega
      · intro i b hi
        have hi' := get_set_none hi
        rw [List.getElem?_set] at hi'
        split at hi'
        · rename_i hx
          rcases hfr with h3 | ⟨_, h3⟩
          · simp only; omega
          · exact absurd (List.mem_of_getElem? ha) (h3 a)
        · exact hab i b hi'
      · intro hx; simp only at hx; omega
      · intro hx; simp only at hx; omega
      · rintro e ⟨b, t, hb, ht, he⟩
        rw [h2, List.mem_cons] at hb
        rcases hb with hb | hb
        · cases hb
        · obtain ⟨j, hj⟩ := List.mem_iff_getElem?.1 hb
          refine ⟨b, t, ?_, ht, he⟩
          by_cases hju : j = o.uprev
          · rw [hju, ha] at hj
            cases hj
            refine mem_set_of_ne (j := o.ufinal) ?_ hne
            rw [List.getElem?_set_self (by omega)]
          · refine mem_set_of_ne (j := j) ?_ (Ne.symm hju)
            rw [List.getElem?_set_ne]
            · exact hj
            · intro hx; rw [← hx, hz'] at hj; cases hj
    · refine ⟨h, { o with g := { o.g with ps := o.g.ps.set o.ufinal o.tmp }, tmp := none, ui := o.ui + 1 },
        ?_, hc, Grow.refl h, ⟨by simp [hl], ?_, ?_, ?_, ?_, ?_, ?_⟩, rfl, ?_, rfl, rfl, rfl⟩
      · have w1 : wr o.g.ps o.ufinal o.tmp = .ok (o.g.ps.set o.ufinal o.tmp) := wr_of (by omega)
        simp only [unionLoop, unionMove, if_neg hu, Res.ok_bind, w1]
      · intro b hb
        rcases List.mem_or_eq_of_mem_set hb with hb | hb
        · exact hlt b hb
        · exact htl b hb.symm
      · intro hx; simp only at hx; omega
      · intro hx; exact absurd hx hu
      · intro i b hi
        simp only at hi
        rw [List.getElem?_set] at hi
        split at hi
        · rename_i hx
          split at hi
          · rcases hfr with h3 | ⟨h3, _⟩
            · simp only; omega
            · rw [h3] at hi; cases hi
          · cases hi
        · exact hab i b hi
      · intro hx; simp only at hx; omega
      · intro hx; simp only at hx; omega
      · rintro e ⟨b, t, hb, ht, he⟩
        refine ⟨b, t, ?_, ht, he⟩
        rw [List.mem_cons] at hb
        rcases hb with hb | hb
        · refine List.mem_of_getElem? (i := o.ufinal) ?_
          rw [List.getElem?_set_self (by omega), hb]
        · obtain ⟨j, hj⟩ := List.mem_iff_getElem?.1 hb
          refine mem_set_of_ne hj ?_
          intro hx; rw [← hx, hz'] at hj; cases hj
  | succ f ih =>
    intro h o hc hl hlt htl hf hfu hui hprev hno hz hab hfr
    have huf : o.ui ≤ o.ufinal := by omega
    obtain ⟨q, hq⟩ : ∃ q, o.g.ps[o.ui]? = some q := ⟨_, List.getElem?_eq_getElem (by omega)⟩
    cases q with
    | none =>
      obtain ⟨h', o', a1, a2⟩ := ih (h := h) (o := { o with ui := o.ui + 1 }) hc hl hlt htl hf (by simp only; omega)
        (by simp only; omega) (fun hu => ⟨by have := (hprev hu).1; simp only; omega, (hprev hu).2⟩) hno
        (fun hx => by simp only at hx; have : o.ufinal = o.ui := by omega
                      rw [this]; exact hq) hab hfr
      exact ⟨h', o', by simp only [unionLoop, rd_of hq, Res.ok_bind]; exact a1, a2⟩
    | some a =>
      have ham : some a ∈ o.g.ps := List.mem_of_getElem? hq
      obtain ⟨t, ht⟩ : ∃ t, h[a]? = some t := ⟨_, List.getElem?_eq_getElem (hlt a ham)⟩
      by_cases hu : o.uprev < RS
      · obtain ⟨h1, h2, b, hb⟩ := hprev hu
        have hbm : some b ∈ o.g.ps := List.mem_of_getElem? hb
        obtain ⟨u, hu'⟩ : ∃ u, h[b]? = some u := ⟨_, List.getElem?_eq_getElem (hlt b hbm)⟩
        obtain ⟨c1, c2, c3⟩ := union_cells hK hc ht hu'
        refine ⟨h.set a (K.union t u), { o with g := { o.g with ps := o.g.ps.set o.uprev none }, uprev := o.ui, ui := o.ui + 1 },
          ?_, c1, c2, ⟨by simp [hl], ?_, fun _ => hf, fun _ => Nat.lt_succ_self _, fun i b hi => hab i b (get_set_none hi), fun _ => Or.inl (hfr.resolve_right fun hx => hx.2 a ham), fun _ => Or.inl ⟨a, ?_⟩⟩, h2, ?_,
          rfl, rfl, rfl⟩
        · have w1 : wr h a (K.union t u) = .ok (h.set a (K.union t u)) := wr_of (hlt a ham)
          have w2 : wr o.g.ps o.uprev none = .ok (o.g.ps.set o.uprev none) := wr_of (by omega)
          simp only [unionLoop, rd_of hq, if_pos hu, rd_of hb, use, rd_of ht, rd_of hu', Res.ok_bind, w1, w2]
        · intro x hx; rw [List.length_set]; exact hlt x (mem_set_none hx)
        · show (o.g.ps.set o.uprev none)[o.ui]? = some (some a)
          rw [List.getElem?_set_ne (by omega)]; exact hq
        · rintro e ⟨x, s, hx, hs, he⟩
          rw [h2, List.mem_cons] at hx
          rcases hx with hx | hx
          · cases hx
          · obtain ⟨j, hj⟩ := List.mem_iff_getElem?.1 hx
            by_cases hju : j = o.uprev
            · rw [hju, hb] at hj
              cases hj
              rw [hu'] at hs; cases hs
              obtain ⟨t', d1, d2⟩ := c3 e he
              exact ⟨a, t', mem_set_of_ne hq (by omega), d1, d2⟩
            · obtain ⟨s', d1, d2⟩ := c2.2 x s hs
              exact ⟨x, s', mem_set_of_ne hj (Ne.symm hju), d1, d2 e he⟩
      · have htm : o.tmp ≠ none := by
          rcases hno (by omega) with h | h
          · exact h
          · exact absurd ham (h a)
        obtain ⟨b, hb⟩ := Option.ne_none_iff_exists'.1 htm
        obtain ⟨u, hu'⟩ : ∃ u, h[b]? = some u := ⟨_, List.getElem?_eq_getElem (htl b hb)⟩
        obtain ⟨c1, c2, c3⟩ := union_cells hK hc ht hu'
        refine ⟨h.set a (K.union t u), { o with tmp := none, uprev := o.ui, ui := o.ui + 1 },
          ?_, c1, c2, ⟨hl, ?_, fun _ => hf, fun _ => Nat.lt_succ_self _, hab, fun _ => Or.inl (hfr.resolve_right fun hx => hx.2 a ham), fun _ => Or.inl ⟨a, hq⟩⟩, rfl, ?_,
          rfl, rfl, rfl⟩
        · have w1 : wr h a (K.union t u) = .ok (h.set a (K.union t u)) := wr_of (hlt a ham)
          simp only [unionLoop, rd_of hq, if_neg hu, hb, use, rd_of ht, rd_of hu', Res.ok_bind, w1]
        · intro x hx; rw [List.length_set]; exact hlt x hx
        · rintro e ⟨x, s, hx, hs, he⟩
          rw [List.mem_cons] at hx
          rcases hx with hx | hx
          · rw [hb] at hx; cases hx
            rw [hu'] at hs; cases hs
            obtain ⟨t', d1, d2⟩ := c3 e he
            exact ⟨a, t', ham, d1, d2⟩
          · obtain ⟨s', d1, d2⟩ := c2.2 x s hs
            exact ⟨x, s', hx, d1, d2 e he⟩

/-- What a look-up through an object finds. -/
def Seen (h : Heap K) (o : HD) (e : Edge) : Prop := e ∈ o.g.c0.live ∨ InCells h o.g.ps e

/-- What holds of every object between calls. -/
structure Good (n : Nat) (A : Edge → Prop) (h : Heap K) (o : HD) : Prop where
  ptrs : Ptrs h o
  tmp : o.tmp = none
  wf : o.g.c0.WF
  c0nv : o.g.c0.nVertices = o.g.nv
  nv : o.g.nv = n
  unm : o.g.c0.marked = 0
  live : ∀ e ∈ o.g.c0.live, InRange n e ∧ A e

theorem Good.grow {n : Nat} {A B : Edge → Prop} {h h' : Heap K} {o : HD} (hg : Good n A h o) (hl : h.length ≤ h'.length)
    (hab : ∀ e, A e → B e) : Good n B h' o :=
  ⟨hg.ptrs.grow hl, hg.tmp, hg.wf, hg.c0nv, hg.nv, hg.unm, fun e he => ⟨(hg.live e he).1, hab e (hg.live e he).2⟩⟩

theorem treesContain_cells (hK : K.Lawful) {n : Nat} {A : Edge → Prop} {h : Heap K} (hc : Cells n A h) {e : Edge}
    (he : InRange n e) : ∀ {ps : List (Option Nat)}, (∀ a, some a ∈ ps → a < h.length) →
    ∃ b, HG.treesContain K e h ps = .ok b ∧ (b = true ↔ InCells h ps e) := by
  intro ps
  induction ps with
  | nil => intro _; exact ⟨false, rfl, by simp [InCells]⟩
  | cons p ps ih =>
    intro hlt
    obtain ⟨b, h1, h2⟩ := ih (fun a ha => hlt a (List.mem_cons_of_mem _ ha))
    cases p with
    | none =>
      refine ⟨b, h1, h2.trans ?_⟩
      simp [InCells]
    | some a =>
      obtain ⟨t, ht⟩ : ∃ t, h[a]? = some t := ⟨_, List.getElem?_eq_getElem (hlt a (by simp))⟩
      have ha := hK.adj_iff n t e (hc a t ht).1 he
      by_cases hb : K.adj t e = true
      · refine ⟨true, by simp [HG.treesContain, rd_of ht, hb], ?_⟩
        exact ⟨fun _ => ⟨a, t, by simp, ht, ha.1 hb⟩, fun _ => rfl⟩
      · refine ⟨b, by simp [HG.treesContain, rd_of ht, hb, h1], h2.trans ?_⟩
        constructor
        · rintro ⟨x, s, c1, c2⟩; exact ⟨x, s, List.mem_cons_of_mem _ c1, c2⟩
        · rintro ⟨x, s, c1, c2, c3⟩
          rcases List.mem_cons.1 c1 with c1 | c1
          · cases c1
            rw [ht] at c2; cases c2
            exact absurd (ha.2 c3) hb
          · exact ⟨x, s, c1, c2, c3⟩

theorem Good.contains (hK : K.Lawful) {n : Nat} {A : Edge → Prop} {h : Heap K} {o : HD} (hg : Good n A h o)
    (hc : Cells n A h) {e : Edge} (he : InRange n e) :
    ∃ b, HD.contains h o e = .ok b ∧ (b = true ↔ Seen h o e) := by
  obtain ⟨b, h1, h2⟩ := treesContain_cells hK hc he hg.ptrs.lt
  unfold HD.contains HG.contains
  rw [hg.wf.contains_eq e, Res.ok_bind]
  by_cases hl : e ∈ o.g.c0.live
  · exact ⟨true, by simp [hl], fun _ => Or.inl hl, fun _ => rfl⟩
  · refine ⟨b, by simp [hl, h1], h2.trans ?_⟩
    exact ⟨Or.inr, fun hh => hh.resolve_left hl⟩

theorem treesNeigh_cells (hK : K.Lawful) {n : Nat} {A : Edge → Prop} {h : Heap K} (hc : Cells n A h) {x : Nat}
    (hx : x < n) : ∀ {ps : List (Option Nat)}, (∀ a, some a ∈ ps → a < h.length) →
    ∃ l, HG.treesNeigh K x h ps = .ok l ∧ ∀ y, y ∈ l ↔ InCells h ps (x, y) := by
  intro ps
  induction ps with
  | nil => intro _; exact ⟨[], rfl, by simp [InCells]⟩
  | cons p ps ih =>
    intro hlt
    obtain ⟨l, h1, h2⟩ := ih (fun a ha => hlt a (List.mem_cons_of_mem _ ha))
    cases p with
    | none =>
      refine ⟨l, h1, fun y => (h2 y).trans ?_⟩
      simp [InCells]
    | some a =>
      obtain ⟨t, ht⟩ : ∃ t, h[a]? = some t := ⟨_, List.getElem?_eq_getElem (hlt a (by simp))⟩
      refine ⟨K.neigh t x ++ l, by simp [HG.treesNeigh, rd_of ht, h1], fun y => ?_⟩
      rw [List.mem_append, h2 y, hK.neigh_iff n t x y (hc a t ht).1 hx]
      constructor
      · rintro (c | ⟨b, s, c1, c2⟩)
        · exact ⟨a, t, by simp, ht, c⟩
        · exact ⟨b, s, List.mem_cons_of_mem _ c1, c2⟩
      · rintro ⟨b, s, c1, c2, c3⟩
        rcases List.mem_cons.1 c1 with c1 | c1
        · cases c1
          rw [ht] at c2; cases c2
          exact Or.inl c3
        · exact Or.inr ⟨b, s, c1, c2, c3⟩

theorem Good.listNeighbour (hK : K.Lawful) {n : Nat} {A : Edge → Prop} {h : Heap K} {o : HD} (hg : Good n A h o)
    (hc : Cells n A h) {x : Nat} (hx : x < n) :
    ∃ l, HD.listNeighbour h o x = .ok l ∧ ∀ y, y ∈ l ↔ Seen h o (x, y) := by
  obtain ⟨l, h1, h2⟩ := treesNeigh_cells hK hc hx (ps := o.g.ps.take (o.g.maxR + 1))
    (fun a ha => hg.ptrs.lt a (List.mem_of_mem_take ha))
  unfold HD.listNeighbour HG.listNeighbour
  rw [hg.wf.listNeighbours_eq x, Res.ok_bind, h1, Res.ok_bind]
  refine ⟨_, rfl, fun y => ?_⟩
  rw [List.mem_append, h2 y]
  refine or_congr (by simp) ?_
  constructor
  · rintro ⟨a, t, c1, c2⟩; exact ⟨a, t, List.mem_of_mem_take c1, c2⟩
  · rintro ⟨a, t, c1, c2⟩
    refine ⟨a, t, ?_, c2⟩
    obtain ⟨j, hj⟩ := List.mem_iff_getElem?.1 c1
    have := hg.ptrs.above j a hj
    refine List.mem_of_getElem? (i := j) ?_
    rw [List.getElem?_take, if_pos (by omega)]
    exact hj

theorem selectLevel_total {S : Sizing} {m : Nat} {h : Heap K} : ∀ {ps : List (Option Nat)} {i acc : Nat},
    (∀ a, some a ∈ ps → a < h.length) →
    ∃ l, HG.selectLevel K S m h ps i acc = .ok l ∧ ∀ r, l = some r → i ≤ r ∧ r < i + ps.length := by
  intro ps
  induction ps with
  | nil => intro i acc _; exact ⟨none, rfl, fun r hr => by cases hr⟩
  | cons p ps ih =>
    intro i acc hlt
    have hlt' : ∀ a, some a ∈ ps → a < h.length := fun a ha => hlt a (List.mem_cons_of_mem _ ha)
    cases p with
    | none =>
      by_cases hb : S.maxsz m (i + 1) > acc + 1
      · exact ⟨some i, by rw [HG.selectLevel, if_pos hb], fun r hr => by cases hr; simp⟩
      · obtain ⟨l, h1, h2⟩ := ih (i := i + 1) (acc := acc) hlt'
        exact ⟨l, by rw [HG.selectLevel, if_neg hb, h1], fun r hr => by have := h2 r hr; simp; omega⟩
    | some a =>
      obtain ⟨t, ht⟩ : ∃ t, h[a]? = some t := ⟨_, List.getElem?_eq_getElem (hlt a (by simp))⟩
      by_cases hb : S.maxsz m (i + 1) > acc + K.total t + 1
      · exact ⟨some i, by rw [HG.selectLevel, rd_of ht, Res.ok_bind, if_pos hb], fun r hr => by cases hr; simp⟩
      · obtain ⟨l, h1, h2⟩ := ih (i := i + 1) (acc := acc + K.total t) hlt'
        exact ⟨l, by rw [HG.selectLevel, rd_of ht, Res.ok_bind, if_neg hb, h1],
          fun r hr => by have := h2 r hr; simp; omega⟩

/-- What one call leaves. -/
structure Kept (n : Nat) (A : Edge → Prop) (h : Heap K) (o : HD) (h' : Heap K) (o' : HD) : Prop where
  cells : Cells n A h'
  grow : Grow h h'
  good : Good n A h' o'
  keep : ∀ e, Seen h o e → Seen h' o' e

theorem pre_keep (hK : K.Lawful) {n : Nat} {A : Edge → Prop} {h : Heap K} {o : HD} (hg : Good n A h o)
    (hc : Cells n A h) : ∃ h' o', pre h o = .ok (h', o') ∧ Kept n A h o h' o' ∧ o'.g.c0 = o.g.c0 := by
  unfold pre
  by_cases hw : o.ufinal < o.ui
  · exact ⟨h, o, by simp [workDone, hw], ⟨hc, Grow.refl h, hg, fun _ he => he⟩, rfl⟩
  · have hp := hg.ptrs
    have hle : o.ui ≤ o.ufinal := by omega
    obtain ⟨h', o', a1, a2, a3, a4, a5, a6, a7, a8, a9⟩ := unionLoop_keep hK (o.ufinal + 1 - o.ui) hc hp.len hp.lt
      (fun a ha => by rw [hg.tmp] at ha; cases ha) (hp.fin hle) rfl (by omega)
      (fun hu => ⟨hp.prev hu, hg.tmp, (hp.src hle).resolve_right (fun hx => by omega)⟩)
      (fun hu => Or.inr ((hp.src hle).elim (fun ⟨a, ha⟩ => by
        rw [List.getElem?_eq_none (by rw [hp.len]; exact hu)] at ha; cases ha) (fun hx => hx.2)))
      (fun hx => by omega) hp.above ((hp.finR hle).imp id (fun hx => ⟨hg.tmp, hx⟩))
    refine ⟨h', o', by simp [workDone, hw, unionDelay, a1], ⟨a2, a3, ⟨a4, a5, by rw [a7]; exact hg.wf, by
      rw [a7, a8]; exact hg.c0nv, by rw [a8]; exact hg.nv, by rw [a7]; exact hg.unm, by rw [a7]; exact hg.live⟩, ?_⟩, a7⟩
    rintro e (he | he)
    · exact Or.inl (by rw [a7]; exact he)
    · refine Or.inr (a6 e ?_)
      obtain ⟨a, t, b1, b2⟩ := he
      exact ⟨a, t, List.mem_cons_of_mem _ b1, b2⟩

theorem flush_keep (hK : K.Lawful) {n : Nat} {A : Edge → Prop} (S : Sizing) {h : Heap K} {o : HD} (hg : Good n A h o)
    (hc : Cells n A h) {e : Edge} (he : InRange n e) (hA : A e) (hl : e ∉ o.g.c0.live) :
    flush S h o e = .throws ∨ ∃ h' o', flush S h o e = .ok (h', o') ∧ Kept n A h o h' o' ∧ Seen h' o' e := by
  have hp := hg.ptrs
  obtain ⟨l, s1, s2⟩ := selectLevel_total (K := K) (S := S) (m := max o.g.nv o.g.nTotal) (h := h) (ps := o.g.ps) (i := 0)
    (acc := S.maxsz (max o.g.nv o.g.nTotal) 0) hp.lt
  unfold flush
  rw [s1, Res.ok_bind]
  cases l with
  | none => exact Or.inl rfl
  | some i =>
    right
    have hi : i < RS := by have := (s2 i rfl).2; rw [hp.len] at this; omega
    obtain ⟨c, c1, c2, c3, c4, c5, c6, c7⟩ := hg.wf.clean_ok
    simp only [hg.wf.converted_eq, c1, Res.ok_bind]
    have hnd : (o.g.c0.live ++ [e]).Nodup := by
      rw [List.nodup_append]
      refine ⟨hg.wf.live_nodup, by simp, ?_⟩
      intro x hx y hy
      simp only [List.mem_singleton] at hy
      subst hy
      exact fun hxy => hl (hxy ▸ hx)
    have hrg : ∀ x ∈ o.g.c0.live ++ [e], InRange n x := by
      intro x hx
      rcases List.mem_append.1 hx with hx | hx
      · exact (hg.live x hx).1
      · simp only [List.mem_singleton] at hx; exact hx ▸ he
    have hbe := hK.build_edges _ n hnd hrg
    have hbv := hK.build_valid _ n hnd hrg
    rw [hg.nv]
    have hc' : Cells n A (h ++ [K.build (o.g.c0.live ++ [e]) n]) := by
      refine hc.push hbv ?_
      intro x hx
      rcases List.mem_append.1 ((hbe x).1 hx) with hx | hx
      · exact (hg.live x hx).2
      · simp only [List.mem_singleton] at hx; exact hx ▸ hA
    obtain ⟨h', o', a1, a2, a3, a4, a5, a6, a7, a8, a9⟩ := unionLoop_keep hK (i + 1 - 0) (o := ⟨{ o.g with
      maxR := max i o.g.maxR, c0 := c }, 0, RS, i, some h.length⟩) hc' hp.len
      (fun a ha => lt_of_lt_of_le (hp.lt a ha) (by simp)) (fun a ha => by cases ha; simp) hi rfl (by simp)
      (fun hu => absurd hu (by simp)) (fun _ => Or.inl (by simp)) (fun hx => absurd hx (by simp))
      (fun j a hj => (hp.above j a hj).trans (Nat.le_max_right _ _)) (Or.inl (Nat.le_max_left _ _))
    have hnew : ∀ x, x ∈ o.g.c0.live ++ [e] → InCells h' o'.g.ps x := by
      intro x hx
      refine a6 x ⟨h.length, _, by simp, by simp, (hbe x).2 hx⟩
    refine ⟨h', { o' with g := { o'.g with nTotal := o'.g.nTotal + 1 } }, ?_, ⟨a2, (Grow.push h _).trans a3, ⟨⟨a4.len, a4.lt,
      a4.fin, a4.prev, a4.above, a4.finR, a4.src⟩, a5, ?_, ?_, ?_, ?_, ?_⟩, ?_⟩, Or.inr (hnew e (by simp))⟩
    · simp only [hg.nv] at a1
      simp only [unionDelay]
      rw [a1]
      rfl
    · simp only [a7]; exact c2
    · simp only [a7, a8]; rw [c7]; exact hg.c0nv
    · simp only [a8]; exact hg.nv
    · simp only [a7]; exact c5
    · simp only [a7, c3]; simp
    · rintro x (hx | hx)
      · exact Or.inr (hnew x (List.mem_append_left _ hx))
      · obtain ⟨a, t, b1, b2, b3⟩ := hx
        refine Or.inr (a6 x ⟨a, t, List.mem_cons_of_mem _ b1, ?_, b3⟩)
        rw [List.getElem?_append_left (List.getElem?_eq_some_iff.1 b2).1]
        exact b2

/-- `add_edge` through one of the objects: it returns, throws or stops at the assertion, and when it returns no object
has lost an edge and (assertions enabled) the edge is seen. -/
theorem addEdge_keep (hK : K.Lawful) {n : Nat} {A : Edge → Prop} (nd : Bool) (S : Sizing) {h : Heap K} {o : HD}
    (hg : Good n A h o) (hc : Cells n A h) {e : Edge} (he : InRange n e) (hA : A e) :
    addEdge nd S h o e = .throws ∨ (nd = false ∧ addEdge nd S h o e = .abort) ∨
      ∃ h' o', addEdge nd S h o e = .ok (h', o') ∧ Kept n A h o h' o' ∧ (nd = false → Seen h' o' e) := by
  obtain ⟨h1, o1, p1, p2, p3⟩ := pre_keep hK hg hc
  obtain ⟨b, b1, b2⟩ := p2.good.contains hK p2.cells he
  unfold addEdge
  rw [p1, Res.ok_bind]
  simp only [b1, Res.ok_bind]
  cases b with
  | true =>
    exact Or.inr (Or.inr ⟨h1, o1, rfl, p2, fun _ => b2.1 rfl⟩)
  | false =>
    have hns : ¬ Seen h1 o1 e := fun hs => by have := b2.2 hs; cases this
    have hnl : e ∉ o1.g.c0.live := fun hl => hns (Or.inl hl)
    rw [if_neg Bool.false_ne_true]
    have g1 := p2.good
    by_cases hsz : o1.g.c0.size < S.maxsz (max o1.g.nv o1.g.nTotal) 0
    · rw [if_pos hsz]
      have hroom : o1.g.c0.room S o1.g.nTotal := by
        unfold C0.room
        rw [g1.c0nv]
        have : o1.g.c0.size = o1.g.c0.nElements := by unfold C0.size; rw [g1.unm]; simp; omega
        omega
      obtain ⟨c', i1, i2, i3, i4, i5, i6⟩ := C0.insert_absent (S := S) (m := o1.g.nTotal) g1.wf hnl hroom
      rw [i1, Res.ok_bind]
      refine Or.inr (Or.inr ⟨h1, _, rfl, ⟨p2.cells, p2.grow, ⟨⟨g1.ptrs.len, g1.ptrs.lt, g1.ptrs.fin, g1.ptrs.prev,
        g1.ptrs.above, g1.ptrs.finR, g1.ptrs.src⟩, g1.tmp, i2, by simp only [i6]; exact g1.c0nv, g1.nv, by
        simp only [i5]; exact g1.unm, ?_⟩, ?_⟩, ?_⟩)
      · intro x hx
        simp only [i3] at hx
        rcases List.mem_append.1 hx with hx | hx
        · exact g1.live x hx
        · simp only [List.mem_singleton] at hx; exact hx ▸ ⟨he, hA⟩
      · intro x hx
        rcases p2.keep x hx with hx | hx
        · left; simp only [i3]; exact List.mem_append_left _ hx
        · exact Or.inr hx
      · intro _; left; simp [i3]
    · rw [if_neg hsz]
      by_cases hw : o1.workDone = true
      · rw [if_pos hw]
        rcases flush_keep hK S g1 p2.cells he hA hnl with hf | ⟨h', o', f1, f2, f3⟩
        · exact Or.inl hf
        · exact Or.inr (Or.inr ⟨h', o', f1, ⟨f2.cells, p2.grow.trans f2.grow, f2.good, fun x hx =>
            f2.keep x (p2.keep x hx)⟩, fun _ => f3⟩)
      · rw [if_neg hw]
        cases nd with
        | true =>
          rw [if_pos rfl]
          exact Or.inr (Or.inr ⟨h1, _, rfl, ⟨p2.cells, p2.grow, ⟨⟨g1.ptrs.len, g1.ptrs.lt, g1.ptrs.fin, g1.ptrs.prev,
            g1.ptrs.above, g1.ptrs.finR, g1.ptrs.src⟩, g1.tmp, g1.wf, g1.c0nv, g1.nv, g1.unm, g1.live⟩,
            fun x hx => p2.keep x hx⟩, fun hh => by cases hh⟩)
        | false => exact Or.inr (Or.inl ⟨rfl, rfl⟩)

end HD
end DK2
