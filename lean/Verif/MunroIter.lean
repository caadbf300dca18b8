import Verif.PropsMunro
import Verif.PropsBit
import Verif.BgHist
import Verif.VarAlgo
/-!
# Iterators and `Algorithm` on `DKtree_delay_munro`

The iterator classes are templates; instantiated with `DKtree_delay_munro` they read `C0`, `k_collection` and `max_r`
(DKtree_delay_.hpp:190-237), never `k_collection_copy` or `tmp_edge`.
-/

namespace DK2
open DK Bits GraphI

theorem DK.flat_length_sum {K : K2Impl} (ks : List (Option K.T)) : (flat K ks).length =
    (ks.map (fun o => (o.map (fun t => (K.edges t).length)).getD 0)).sum := by
  induction ks with
  | nil => rfl
  | cons o ks ih => cases o <;> simp [ih]

namespace DKM

/-- What the iterators see (DKtree_delay_.hpp:190-237): the members they read, in the shape of a `DKtree`. -/
def view (P : MPar) (d : DKM) : DK (bitK2 P.k P.H) :=
  ⟨d.maxR, d.nv, d.nTotal, d.c0, d.ks.map (Option.map (fun t => ⟨t, 0⟩))⟩

/-- What `Algorithm<DKtree_delay_munro>` sees: the loops over iterators (DKtree_delay_.hpp:198-225), `list_neighbour` (167-189),
`contains` (146-163) and the two counters (78-84).  Simplified: `k2_tree`'s own iterators run row by row, as in `MT.edges`. -/
def iface (P : MPar) (d : DKM) : GraphI :=
  { (d.view P).iface with listNb := d.listNeighbour P, contains := d.contains P }

/-- The edge sets of the levels as they are now: a pending union has taken the levels below `ki`. -/
def nowLv (d : DKM) (es : List (Option (List Edge))) : Option Pd → List (Option (List Edge))
  | none => es
  | some _ => US.rest es d.us.ki

section
variable {k n : Nat} {nd : Bool} {d : DKM} {es : List (Option (List Edge))} {p : Option Pd}

theorem MInv.ks_now {P : MPar} (h : MInv P n d es p) : d.ks = US.stored P.k (P.H n) n (nowLv d es p) := by
  cases p with
  | none => exact h.st.2
  | some q => exact h.st.2.1.ks_eq

theorem MInv.now_lv {P : MPar} (h : MInv P n d es p) : Lv n (nowLv d es p) := by
  cases p with
  | none => exact h.lv
  | some q =>
    have h2 := h.st.2.1
    have hki : d.us.ki ≤ RS := by have := h2.i_le; have := h.st.1.hm; rw [h.lv.len] at this; omega
    exact h.lv.rest hki

theorem MInv.now_top {P : MPar} (h : MInv P n d es p) : ∀ l E, (nowLv d es p)[l]? = some (some E) → l ≤ d.maxR := by
  cases p with
  | none => exact h.top.1
  | some q => exact tops_rest h.top.1

theorem MInv.view_mem {P : MPar} (h : MInv P n d es p) {t : MT} (ht : some t ∈ (d.view P).ks) :
    ∃ E, some E ∈ nowLv d es p ∧ t = MT.build P.k P.H E n := by
  unfold view at ht
  rw [h.ks_now] at ht
  simp only [US.stored, List.mem_map] at ht
  obtain ⟨o, ⟨o', h1, rfl⟩, h2⟩ := ht
  cases o' with
  | none => cases h2
  | some E => cases h2; exact ⟨E, h1, rfl⟩

theorem MInv.flat_mem {P : MPar} (hT : MT.Tall P.k P.H) (h : MInv P n d es p) (e : Edge) :
    e ∈ flat (bitK2 P.k P.H) (d.view P).ks ↔ edgesIn (nowLv d es p) e := by
  rw [DK.mem_flat]
  constructor
  · rintro ⟨t, ht, he⟩
    obtain ⟨E, hE, rfl⟩ := h.view_mem ht
    exact ⟨E, hE, (MT.mem_build hT (h.now_lv.ne E hE).2 e).1 he⟩
  · rintro ⟨E, hE, he⟩
    refine ⟨MT.build P.k P.H E n, ?_, (MT.mem_build hT (h.now_lv.ne E hE).2 e).2 he⟩
    unfold view
    rw [h.ks_now]
    simp only [US.stored, List.mem_map]
    exact ⟨_, ⟨some E, hE, rfl⟩, rfl⟩

theorem now_held {P : MPar} (h : MInv P n d es p) {e : Edge} (he : edgesIn (nowLv d es p) e) : edgesIn es e := by
  cases p with
  | none => exact he
  | some q => exact edgesIn_rest he

/-- The state the iterators see is well formed. -/
theorem MInv.view_winv {P : MPar} (hT : MT.Tall P.k P.H) (h : MInv P n d es p) : (d.view P).WInv where
  c0wf := h.wf
  c0nv := by show d.c0.nVertices = d.nv; rw [h.c0nv, h.nv]
  len := by
    show (d.ks.map _).length = RS
    rw [List.length_map, h.ks_now, US.stored, List.length_map, h.now_lv.len]
  val := by
    intro t ht
    obtain ⟨E, hE, rfl⟩ := h.view_mem ht
    show MT.Valid P.k P.H d.nv _
    rw [h.nv]
    exact MT.build_valid hT (h.now_lv.ne E hE).2
  maxR_lt := h.top.2.2
  range := by
    intro e he
    show InRange d.nv e
    rw [h.nv]
    rcases List.mem_append.1 he with h1 | h1
    · exact h.rng e h1
    · obtain ⟨E, hE, he⟩ := (h.flat_mem hT e).1 h1
      exact (h.now_lv.ne E hE).2 e he

theorem MInv.view_ne {P : MPar} (hT : MT.Tall P.k P.H) (h : MInv P n d es p) : (d.view P).NoEmptyTree := by
  intro t ht hc
  obtain ⟨E, hE, rfl⟩ := h.view_mem ht
  obtain ⟨h1, h2⟩ := h.now_lv.ne E hE
  cases E with
  | nil => exact h1 rfl
  | cons e l =>
    have := (MT.mem_build hT h2 e).2 (by simp)
    rw [show MT.edges P.k _ = [] from hc] at this
    cases this

theorem MInv.view_above {P : MPar} (h : MInv P n d es p) : (d.view P).NoneAbove := by
  intro i t hi
  show i ≤ d.maxR
  have hi' : (d.ks.map (Option.map (fun t : BT => (⟨t, 0⟩ : MT))))[i]? = some (some t) := hi
  rw [h.ks_now, US.stored, List.map_map, List.getElem?_map] at hi'
  cases ho : (nowLv d es p)[i]? with
  | none => rw [ho] at hi'; cases hi'
  | some o =>
    cases o with
    | none => rw [ho] at hi'; cases hi'
    | some E => exact h.now_top i E ho

/-- What a loop over the edges visits: the buffer, then the levels as they are now. -/
theorem MInv.edgeLoop {P : MPar} (hT : MT.Tall P.k P.H) (h : MInv P n d es p) (h0 : n ≠ 0) (hn : n ≤ 9999999) :
    (∀ f, (d.view P).edgesOf.length < f → (d.view P).eAll 0 f = .ok (d.view P).edgesOf) ∧
    (d.iface P).edges = .ok (d.view P).edgesOf ∧
    ∀ e, e ∈ (d.view P).edgesOf ↔ e ∈ d.c0.live ∨ edgesIn (nowLv d es p) e := by
  have hw := h.view_winv hT
  have hE : slots (d.view P).c0 ++ flat (bitK2 P.k P.H) (d.view P).ks = (d.view P).edgesOf := by
    show slots d.c0 ++ _ = d.c0.live ++ _
    rw [slots_eq_live h.wf h.c0m]
  have key : ∀ f, (d.view P).edgesOf.length < f → (d.view P).eAll 0 f = .ok (d.view P).edgesOf := by
    intro f hf
    rw [hw.eAll_eq (by show d.nv ≠ 0; rw [h.nv]; exact h0) (h.view_ne hT) (by
      rw [hE]
      intro hc
      have h1 : maxEdge.1 < d.nv := (hw.range _ hc).1
      have h' : maxEdge.1 = 9999999 := rfl
      rw [h.nv] at h1
      omega) f (by rw [hE]; exact hf), hE]
  refine ⟨key, key _ ?_, ?_⟩
  · have h1 : (slots (d.view P).c0).length ≤ (d.view P).c0.elementsNodes.length := by
      have e1 := hw.c0wf.size_eq; have e2 := hw.c0wf.live_length
      have e3 : (d.view P).c0.liveSlots.length ≤ (d.view P).c0.nElements := by
        unfold C0.liveSlots
        exact le_trans (List.length_filter_le _ _) (by simp)
      have e4 := hw.c0wf.n_le
      have e5 := hw.c0wf.len_en
      simp only [slots, List.length_map, List.length_range]
      omega
    rw [← hE, List.length_append, flat_length_sum]
    omega
  · intro e
    unfold edgesOf
    rw [List.mem_append, h.flat_mem hT]
    rfl

/-- What a loop over the neighbours of `x` visits. -/
theorem MInv.neighLoop {P : MPar} (hT : MT.Tall P.k P.H) (h : MInv P n d es p) (hn : n ≤ 2 ^ 31) {x : Nat} (hx : x < n) :
    ∃ l, (∀ f, l.length < f → (d.view P).nbAll x f = .ok (l.map (fun y : Nat => (y : Int)))) ∧
      (d.iface P).nb x = .ok l ∧ (∀ y ∈ l, y < n) ∧ (∀ y, y ∈ l ↔ (x, y) ∈ (d.view P).edgesOf) ∧
      ((d.view P).edgesOf.Nodup → l.Nodup) := by
  have hw := h.view_winv hT
  have hnv : (d.view P).nv = n := h.nv
  have hxv : x < (d.view P).nv := by rw [hnv]; exact hx
  obtain ⟨l, h1, h2⟩ := hw.nbAll_eq x
  have hm : ∀ y, y ∈ l ↔ (x, y) ∈ (d.view P).edgesOf := by
    intro y
    unfold DK.listNeighbour at h1
    rw [hw.c0wf.listNeighbours_eq] at h1
    simp only [Res.ok_bind] at h1
    cases h1
    unfold edgesOf
    rw [List.mem_append, List.mem_append, BG.treesNeigh_mem (bitK2_lawful hT) hxv
      (ks := (d.view P).ks.take ((d.view P).maxR + 1)) (fun t ht => hw.val t (List.mem_of_mem_take ht)),
      take_flat h.view_above]
    refine or_congr_left ?_
    simp only [List.mem_reverse, List.mem_map, List.mem_filter, decide_eq_true_eq]
    constructor
    · rintro ⟨⟨a, b⟩, ⟨h3, rfl⟩, rfl⟩; exact h3
    · intro h3; exact ⟨(x, y), ⟨h3, rfl⟩, rfl⟩
  have hlt : ∀ y ∈ l, y < n := by
    intro y hy
    have := (hw.range _ ((hm y).1 hy)).2
    rwa [hnv] at this
  have hs : ∀ y ∈ l, toInt y ≠ -1 := by
    intro y hy
    rw [toInt_of_lt (by have := hlt y hy; omega)]
    omega
  refine ⟨l, fun f hf => ?_, ?_, hlt, hm, fun hnd => ?_⟩
  · rw [← toInt_small hn hlt]; exact h2 hs f hf
  · show ((d.view P).listNeighbour x >>= fun l => (d.view P).nbAll x (l.length + 1) >>= fun m => Res.ok (m.map toEtype)) = _
    rw [h1]
    simp only [Res.ok_bind, h2 hs _ (Nat.lt_succ_self _)]
    rw [toInt_small hn hlt, toEtype_map (n := n) (by omega) hlt]
  · have hi : (d.view P).Inv := ⟨hw, hnd⟩
    obtain ⟨l', a1, a2, _⟩ := hi.listNeighbour (bitK2_lawful hT) h.view_above hxv
    rw [a1] at h1; cases h1; exact a2

end
end DKM
end DK2
