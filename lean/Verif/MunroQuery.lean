import Verif.MunroBudget
/-!
# `DKtree_delay_munro`: what the queries return
-/

namespace DK2
open Bits

namespace DKM

/-- The edges in the levels, each once per level. -/
def lvEdges (es : List (Option (List Edge))) : List Edge := (es.map (fun o => o.elim [] List.dedup)).flatten

theorem mem_lvEdges {es : List (Option (List Edge))} {e : Edge} : e ∈ lvEdges es ↔ edgesIn es e := by
  unfold lvEdges edgesIn
  simp only [List.mem_flatten, List.mem_map]
  constructor
  · rintro ⟨l, ⟨o, ho, rfl⟩, h⟩
    cases o with
    | none => cases h
    | some E => exact ⟨E, ho, List.mem_dedup.1 h⟩
  · rintro ⟨E, h1, h2⟩
    exact ⟨_, ⟨some E, h1, rfl⟩, List.mem_dedup.2 h2⟩

theorem lvEdges_length (es : List (Option (List Edge))) : (lvEdges es).length = wt es := by
  unfold lvEdges wt
  rw [List.length_flatten, List.map_map]
  congr 1
  apply List.map_congr_left
  intro o _
  cases o <;> rfl

theorem neigh_count {P : MPar} {n N : Nat} (hc : Ctx P n N) {E : List Edge} (hE : ∀ e ∈ E, InRange n e) {x : Nat}
    (hx : x < n) (y : Nat) : ((BT.encode P.k (P.H n) n E).neigh P.k x).count y = E.dedup.count (x, y) := by
  have hk := hc.hk
  have hnv : (BT.encode P.k (P.H n) n E).nv = n := rfl
  rw [List.nodup_dedup E |>.count]
  unfold BT.neigh
  rw [hnv, (List.nodup_range.filter _).count]
  simp only [List.mem_filter, List.mem_range, decide_eq_true_eq, List.mem_dedup]
  by_cases hy : y < n
  · rw [BT.encode_adj (k := P.k) (h := P.H n) (by omega) hc.hh hc.hn hE (e := (x, y)) ⟨hx, hy⟩]
    simp [hy]
  · have : (x, y) ∉ E := fun h => hy (hE _ h).2
    simp [hy, this]

theorem allNeigh_count {P : MPar} {n N : Nat} (hc : Ctx P n N) {x : Nat} (hx : x < n) (y : Nat) :
    ∀ {es : List (Option (List Edge))}, (∀ E, some E ∈ es → ∀ e ∈ E, InRange n e) →
    (allNeigh P.k x (US.stored P.k (P.H n) n es)).count y = (lvEdges es).count (x, y) := by
  intro es
  induction es with
  | nil => intro _; rfl
  | cons o es ih =>
    intro h
    have ih := ih (fun E hE => h E (List.mem_cons_of_mem _ hE))
    cases o with
    | none =>
      have : lvEdges (none :: es) = lvEdges es := by simp [lvEdges]
      rw [this]; exact ih
    | some E =>
      have : lvEdges (some E :: es) = E.dedup ++ lvEdges es := by simp [lvEdges]
      rw [this, List.count_append]
      simp only [US.stored, List.map_cons, Option.map_some, allNeigh, List.count_append] at ih ⊢
      rw [neigh_count hc (h E (by simp)) hx, ih]

/-- How often `list_neighbour(x)` returns `y`. -/
theorem MInv.listNeighbour {P : MPar} {n N : Nat} (hc : Ctx P n N) {d : DKM} {es : List (Option (List Edge))}
    {p : Option Pd} (h : MInv P n d es p) {x : Nat} (hx : x < n) :
    ∃ l, d.listNeighbour P x = .ok l ∧ ∀ y, l.count y = d.c0.live.count (x, y) + (lvEdges es).count (x, y) +
      if p = none ∧ d.tmpEdge = (x, y) then 1 else 0 := by
  have hlive : ∀ y, ((d.c0.live.filter (fun e => decide (e.1 = x))).map (·.2)).reverse.count y =
      d.c0.live.count (x, y) := by
    intro y
    rw [List.count_reverse]
    induction d.c0.live with
    | nil => rfl
    | cons a t ih =>
      obtain ⟨a1, a2⟩ := a
      rw [List.filter_cons]
      simp only [decide_eq_true_eq]
      split
      · rename_i h1
        subst h1
        rw [List.map_cons, List.count_cons, List.count_cons, ih]
        simp
      · rename_i h1
        rw [ih, List.count_cons]
        simp [h1]
  have hlv := fun y => allNeigh_count hc hx y (es := es) (fun E hE => (h.lv.ne E hE).2)
  unfold DKM.listNeighbour
  rw [h.wf.listNeighbours_eq]
  simp only [Res.ok_bind]
  cases p with
  | none =>
    obtain ⟨h1, h2⟩ := h.st
    rw [h1, if_pos rfl, h2]
    refine ⟨_, rfl, ?_⟩
    intro y
    rw [List.count_append, List.count_append, hlive, hlv]
    have : (if d.tmpEdge.1 = x then [d.tmpEdge.2] else []).count y = if d.tmpEdge = (x, y) then 1 else 0 := by
      obtain ⟨a, b⟩ := d.tmpEdge
      simp only [Prod.mk.injEq]
      by_cases ha : a = x
      · by_cases hb : b = y
        · simp [ha, hb]
        · simp [ha, hb]
      · simp [ha]
    rw [this]
    simp only [true_and]
    omega
  | some q =>
    obtain ⟨_, h3, _, _, _, h4, _⟩ := h.st
    rw [h3.fin, if_neg Bool.false_ne_true, h4]
    refine ⟨_, rfl, ?_⟩
    intro y
    rw [List.count_append, hlive, hlv]
    simp

/-- The edges the graph holds, as a list. -/
def allEdges (d : DKM) (es : List (Option (List Edge))) (p : Option Pd) : List Edge :=
  d.c0.live ++ (batch p ++ lvEdges es)

theorem mem_allEdges {d : DKM} {es : List (Option (List Edge))} {p : Option Pd} {e : Edge} :
    e ∈ allEdges d es p ↔ held d es p e := by
  unfold allEdges held
  rw [List.mem_append, List.mem_append, mem_lvEdges]

theorem MInv.finish_iff {P : MPar} {n : Nat} {d : DKM} {es : List (Option (List Edge))} {p : Option Pd}
    (h : MInv P n d es p) : d.us.finish = true ↔ p = none := by
  cases p with
  | none => simp [h.st.1]
  | some q => simp [h.st.2.1.fin]

/-- When the edge count is the number of distinct inserted edges and none was lost, each edge is held once. -/
theorem Track.nodup {P : MPar} {n : Nat} {G : List Edge} {d : DKM} {es : List (Option (List Edge))} {p : Option Pd}
    (t : Track P n G d es p) (hh : ∀ x ∈ G, held d es p x) (hcount : d.nTotal = G.dedup.length) :
    (allEdges d es p).Nodup := by
  have h1 : (allEdges d es p).length ≤ d.nTotal := by
    unfold allEdges
    rw [List.length_append, List.length_append, lvEdges_length]
    have := t.inv.cnt
    omega
  have h2 : (allEdges d es p).dedup.length = G.dedup.length := by
    rw [← List.card_toFinset, ← List.card_toFinset]
    congr 1
    ext x
    rw [List.mem_toFinset, List.mem_toFinset, mem_allEdges]
    exact ⟨t.sound x, hh x⟩
  have h3 := (List.dedup_sublist (allEdges d es p)).eq_of_length_le (by omega)
  rw [← h3]
  exact List.nodup_dedup _

end DKM
end DK2
