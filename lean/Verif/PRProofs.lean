import Verif.TriProofs
import Mathlib.Algebra.Order.Ring.Abs
import Mathlib.Algebra.Order.BigOperators.Group.List
import Mathlib.Algebra.Order.Field.Basic
import Mathlib.Tactic.Ring
import Mathlib.Tactic.FieldSimp
import Mathlib.Tactic.Linarith
import Mathlib.Tactic.LinearCombination
/-!
# pageRank: proofs
-/

namespace DK2
namespace GraphI
variable {F : Type} [Field F] [LinearOrder F] [IsStrictOrderedRing F]

theorem sum_set : ∀ (l : List F) (i : Nat) (x d : F), l[i]? = some x → (l.set i (x + d)).sum = l.sum + d := by
  intro l
  induction l with
  | nil => intro i x d h; simp at h
  | cons a l ih =>
    intro i x d h
    cases i with
    | zero => simp at h; subst h; simp; ring
    | succ i => simp at h; simp [ih i x d h]; ring

theorem addAt_ok {l : List F} {i : Nat} (h : i < l.length) (d : F) :
    ∃ l', addAt l i d = .ok l' ∧ l'.length = l.length ∧ l'.sum = l.sum + d ∧
      (0 ≤ d → (∀ x ∈ l, 0 ≤ x) → ∀ x ∈ l', 0 ≤ x) := by
  have hx : l[i]? = some l[i] := List.getElem?_eq_getElem h
  refine ⟨l.set i (l[i] + d), ?_, by simp, sum_set l i _ d hx, ?_⟩
  · unfold addAt
    rw [rd_of hx]
    simp only [Res.ok_bind]
    exact wr_of h
  · intro hd hl x hm
    rcases List.mem_or_eq_of_mem_set hm with h1 | h1
    · exact hl x h1
    · rw [h1]; exact add_nonneg (hl _ (List.getElem_mem h)) hd

theorem spread_ok (d : F) : ∀ {vs : List Nat} {pr : List F}, (∀ v ∈ vs, v < pr.length) →
    ∃ pr', spread d vs pr = .ok pr' ∧ pr'.length = pr.length ∧ pr'.sum = pr.sum + vs.length * d ∧
      (0 ≤ d → (∀ x ∈ pr, 0 ≤ x) → ∀ x ∈ pr', 0 ≤ x) := by
  intro vs
  induction vs with
  | nil => intro pr _; exact ⟨pr, rfl, rfl, by simp, fun _ h => h⟩
  | cons v vs ih =>
    intro pr h
    obtain ⟨p1, a1, a2, a3, a4⟩ := addAt_ok (h v (by simp)) d
    obtain ⟨p2, b1, b2, b3, b4⟩ := ih (pr := p1) (fun w hw => by rw [a2]; exact h w (by simp [hw]))
    refine ⟨p2, ?_, by rw [b2, a2], ?_, fun hd hp => b4 hd (a4 hd hp)⟩
    · unfold spread; rw [a1]; exact b1
    · rw [b3, a3]; push_cast [List.length_cons]; ring

/-- The convergence measure bounds the change of mass. -/
theorem abs_sum_le : ∀ (a b : List F), a.length = b.length → |a.sum - b.sum| ≤ prErr a b := by
  intro a
  induction a with
  | nil => intro b h; cases b with
    | nil => simp [prErr]
    | cons _ _ => simp at h
  | cons x a ih =>
    intro b h
    cases b with
    | nil => simp at h
    | cons y b =>
      have h1 := ih b (by simpa using h)
      have h2 : |(x :: a).sum - (y :: b).sum| = |(x - y) + (a.sum - b.sum)| := by
        congr 1; simp; ring
      rw [h2]
      have h3 : prErr (x :: a) (y :: b) = |x - y| + prErr a b := by simp [prErr]
      rw [h3]
      exact le_trans (abs_add_le _ _) (by linarith)

/-- Well-formed data of `pageRank`: `n` link lists with targets below `n`. -/
structure Links (n : Nat) (out : List (List Nat)) : Prop where
  len : out.length = n
  tgt : ∀ l ∈ out, ∀ v ∈ l, v < n

theorem getD_mem {out : List (List Nat)} {i : Nat} (h : i < out.length) : (out[i]?).getD [] ∈ out := by
  rw [List.getElem?_eq_getElem h]; exact List.getElem_mem h

/-- The loop over the nodes: where it stops, what it added. -/
theorem prSweep_ok {n : Nat} {out : List (List Nat)} (hL : Links n out) {alpha conv dsum : F} {old : List F}
    (ho : old.length = n) :
    ∀ {is : List Nat} {pr : List F}, (∀ i ∈ is, i < n) → pr.length = n →
      ∃ r, prSweep alpha conv dsum n out old is pr = .ok r ∧
        (match r with
        | .inl p => p.length = n ∧ prErr p old < n * conv
        | .inr p => p.length = n ∧ p.sum = pr.sum + (is.map (fun i =>
            (if ((out[i]?).getD []).isEmpty then 0 else alpha * (old[i]?).getD 0) +
            (dsum * (1 / (n : F)) + (1 - alpha) * (1 / (n : F))))).sum) ∧
        (0 ≤ alpha → alpha ≤ 1 → 0 ≤ dsum → (∀ x ∈ old, 0 ≤ x) → (∀ x ∈ pr, 0 ≤ x) →
          match r with
          | .inl p => ∀ x ∈ p, 0 ≤ x
          | .inr p => ∀ x ∈ p, 0 ≤ x) := by
  intro is
  induction is with
  | nil => intro pr _ hp; exact ⟨.inr pr, rfl, ⟨hp, by simp⟩, fun _ _ _ _ h => h⟩
  | cons i is ih =>
    intro pr hi hp
    have hin : i < n := hi i (by simp)
    have hio : i < out.length := by rw [hL.len]; exact hin
    have hiold : i < old.length := by rw [ho]; exact hin
    have ho1 : out[i]? = some out[i] := List.getElem?_eq_getElem hio
    have ho2 : old[i]? = some old[i] := List.getElem?_eq_getElem hiold
    obtain ⟨p1, a1, a2, a3, a4⟩ := spread_ok (alpha * old[i] * (1 / ((out[i]).length : F)))
      (vs := out[i]) (pr := pr) (fun v hv => by rw [hp]; exact hL.tgt _ (List.getElem_mem hio) v hv)
    obtain ⟨p2, b1, b2, b3, b4⟩ := addAt_ok (l := p1) (i := i) (by rw [a2, hp]; exact hin)
      (dsum * (1 / (n : F)) + (1 - alpha) * (1 / (n : F)))
    have hp2 : p2.length = n := by rw [b2, a2, hp]
    have hgain : ((out[i]).length : F) * (alpha * old[i] * (1 / ((out[i]).length : F))) =
        (if ((out[i]?).getD []).isEmpty then 0 else alpha * (old[i]?).getD 0) := by
      rw [ho1, ho2]
      simp only [Option.getD_some]
      cases hz : out[i] with
      | nil => simp
      | cons v vs =>
        have : ((v :: vs).length : F) ≠ 0 := by
          simp only [List.length_cons]; exact Nat.cast_ne_zero.2 (Nat.succ_ne_zero _)
        simp only [List.isEmpty_cons, Bool.false_eq_true, if_false]
        field_simp
    have hpos : 0 ≤ alpha → alpha ≤ 1 → 0 ≤ dsum → (∀ x ∈ old, 0 ≤ x) → (∀ x ∈ pr, 0 ≤ x) →
        ∀ x ∈ p2, 0 ≤ x := by
      intro h1 h2 h3 h4 h5
      have hn : (0 : F) ≤ 1 / (n : F) := by positivity
      refine b4 (add_nonneg (mul_nonneg h3 hn) (mul_nonneg (by linarith) hn)) (a4 ?_ h5)
      refine mul_nonneg (mul_nonneg h1 (h4 _ (List.getElem_mem hiold))) ?_
      positivity
    unfold prSweep
    rw [rd_of ho1, rd_of ho2]
    simp only [Res.ok_bind, a1, b1]
    by_cases hc : prErr p2 old < n * conv
    · rw [if_pos hc]
      exact ⟨.inl p2, rfl, ⟨hp2, hc⟩, hpos⟩
    · rw [if_neg hc]
      obtain ⟨r, c1, c2, c3⟩ := ih (pr := p2) (fun j hj => hi j (by simp [hj])) hp2
      refine ⟨r, c1, ?_, fun h1 h2 h3 h4 h5 => c3 h1 h2 h3 h4 (hpos h1 h2 h3 h4 h5)⟩
      cases r with
      | inl p => exact c2
      | inr p =>
        refine ⟨c2.1, ?_⟩
        rw [c2.2, b3, a3, hgain, List.map_cons, List.sum_cons]
        ring

theorem danglingSum_ok {old : List F} : ∀ {ks : List Nat}, (∀ k ∈ ks, k < old.length) →
    danglingSum old ks = .ok (ks.map (fun k => (old[k]?).getD 0)).sum := by
  intro ks
  induction ks with
  | nil => intro _; rfl
  | cons k ks ih =>
    intro h
    have hk := h k (by simp)
    unfold danglingSum
    rw [rd_of (List.getElem?_eq_getElem hk), ih (fun j hj => h j (by simp [hj]))]
    simp [List.getElem?_eq_getElem hk]

/-- The dangling vertices. -/
def dangling (n : Nat) (out : List (List Nat)) : List Nat :=
  (List.range n).filter (fun i => ((out[i]?).getD []).isEmpty)

theorem sum_range_getD (l : List F) : ((List.range l.length).map (fun i => (l[i]?).getD 0)).sum = l.sum := by
  congr 1
  apply List.ext_getElem
  · simp
  · intro i h1 h2
    simp at h1
    simp [h1]

theorem sum_filter_split (p : Nat → Bool) (f : Nat → F) (c : F) (al : F) : ∀ l : List Nat,
    (l.map (fun i => (if p i then 0 else al * f i) + c)).sum + al * ((l.filter p).map f).sum =
      al * (l.map f).sum + l.length * c := by
  intro l
  induction l with
  | nil => simp
  | cons a l ih =>
    by_cases h : p a = true
    · simp only [List.map_cons, List.sum_cons, h, if_true, List.filter_cons, List.length_cons]
      push_cast
      linear_combination ih
    · simp only [List.map_cons, List.sum_cons, h, List.filter_cons, List.length_cons, Bool.false_eq_true, if_false]
      push_cast
      linear_combination ih

/-- One turn of the `while` loop: a full sweep maps the mass `M` to `alpha*M + (1-alpha)`; a return from
inside the loop changes it by less than `n*conv`. -/
theorem prTurn_ok {n : Nat} (hn : 0 < n) {out : List (List Nat)} (hL : Links n out) {alpha conv : F}
    {old : List F} (ho : old.length = n) :
    ∃ r, prTurn alpha conv n out (dangling n out) old = .ok r ∧
      (match r with
      | .inl p => p.length = n ∧ |p.sum - old.sum| < n * conv
      | .inr p => p.length = n ∧ p.sum = alpha * old.sum + (1 - alpha)) ∧
      (0 ≤ alpha → alpha ≤ 1 → (∀ x ∈ old, 0 ≤ x) →
        match r with
        | .inl p => ∀ x ∈ p, 0 ≤ x
        | .inr p => ∀ x ∈ p, 0 ≤ x) := by
  have hd := danglingSum_ok (old := old) (ks := dangling n out) (fun k hk => by
    rw [ho]; exact List.mem_range.1 (List.mem_filter.1 hk).1)
  unfold prTurn
  rw [hd]
  simp only [Res.ok_bind]
  obtain ⟨r, c1, c2, c3⟩ := prSweep_ok hL (alpha := alpha) (conv := conv)
    (dsum := ((dangling n out).map (fun k => (old[k]?).getD 0)).sum * alpha) ho
    (is := List.range n) (pr := List.replicate n 0) (fun i hi => List.mem_range.1 hi) (by simp)
  refine ⟨r, c1, ?_, ?_⟩
  · cases r with
    | inl p => exact ⟨c2.1, lt_of_le_of_lt (abs_sum_le p old (by rw [c2.1, ho])) c2.2⟩
    | inr p =>
      refine ⟨c2.1, ?_⟩
      have h1 := sum_filter_split (fun i => ((out[i]?).getD []).isEmpty) (fun i => (old[i]?).getD (0 : F))
        ((((dangling n out).map (fun k => (old[k]?).getD 0)).sum * alpha) * (1 / (n : F)) +
          (1 - alpha) * (1 / (n : F))) alpha (List.range n)
      have h2 : ((List.range n).map (fun i => (old[i]?).getD (0 : F))).sum = old.sum := by
        rw [← ho]; exact sum_range_getD old
      have h3 : (n : F) ≠ 0 := by exact_mod_cast (Nat.pos_iff_ne_zero.1 hn)
      rw [c2.2]
      rw [h2, List.length_range] at h1
      change _ + alpha * ((dangling n out).map _).sum = _ at h1
      have h4 : (n : F) * ((((dangling n out).map (fun k => (old[k]?).getD 0)).sum * alpha) * (1 / (n : F)) +
          (1 - alpha) * (1 / (n : F))) =
          ((dangling n out).map (fun k => (old[k]?).getD 0)).sum * alpha + (1 - alpha) := by
        field_simp
      rw [h4] at h1
      rw [List.sum_replicate, nsmul_zero]
      linear_combination h1
  · intro h1 h2 h3
    refine c3 h1 h2 ?_ h3 ?_
    · refine mul_nonneg (List.sum_nonneg ?_) h1
      intro x hx
      obtain ⟨k, _, rfl⟩ := List.mem_map.1 hx
      cases hk : old[k]? with
      | none => simp
      | some y => simpa using h3 y (List.mem_of_getElem? hk)
    · intro x hx
      rw [List.eq_of_mem_replicate hx]

/-- Mass after `k` full sweeps from mass `M`. -/
def massAfter (alpha M : F) (k : Nat) : F := 1 + alpha ^ k * (M - 1)

theorem prLoop_ok {n : Nat} (hn : 0 < n) {out : List (List Nat)} (hL : Links n out) {alpha conv : F} :
    ∀ (k : Nat) (pr : List F), pr.length = n →
      ∃ p, prLoop alpha conv n out (dangling n out) k pr = .ok p ∧ p.length = n ∧
        (p.sum = massAfter alpha pr.sum k ∨
          ∃ j, j < k ∧ |p.sum - massAfter alpha pr.sum j| < n * conv) ∧
        (0 ≤ alpha → alpha ≤ 1 → (∀ x ∈ pr, 0 ≤ x) → ∀ x ∈ p, 0 ≤ x) := by
  intro k
  induction k with
  | zero =>
    intro pr hp
    exact ⟨pr, rfl, hp, Or.inl (by simp [massAfter]), fun _ _ h => h⟩
  | succ k ih =>
    intro pr hp
    obtain ⟨r, c1, c2, c3⟩ := prTurn_ok hn hL (alpha := alpha) (conv := conv) hp
    unfold prLoop
    rw [c1]
    simp only [Res.ok_bind]
    cases r with
    | inl p =>
      refine ⟨p, rfl, c2.1, Or.inr ⟨0, Nat.succ_pos _, ?_⟩, c3⟩
      have : massAfter alpha pr.sum 0 = pr.sum := by simp [massAfter]
      rw [this]; exact c2.2
    | inr p =>
      obtain ⟨p', d1, d2, d3, d4⟩ := ih p c2.1
      have hm : ∀ j, massAfter alpha p.sum j = massAfter alpha pr.sum (j + 1) := by
        intro j
        rw [c2.2]; unfold massAfter; ring
      refine ⟨p', d1, d2, ?_, fun h1 h2 h3 => d4 h1 h2 (c3 h1 h2 h3)⟩
      rcases d3 with d3 | ⟨j, hj, d3⟩
      · exact Or.inl (by rw [d3, hm])
      · exact Or.inr ⟨j + 1, by omega, by rw [← hm]; exact d3⟩

variable {G : GraphI}

theorem outLinks_ok {L : Nat → List Nat} : ∀ {ns : List Nat}, (∀ x ∈ ns, G.listNb x = .ok (L x)) →
    G.outLinks ns = .ok (ns.map L) := by
  intro ns
  induction ns with
  | nil => intro _; rfl
  | cons a ns ih =>
    intro h
    unfold outLinks
    rw [h a (by simp), ih (fun x hx => h x (by simp [hx]))]
    rfl

/-- `pageRank` on a graph whose neighbour lists are `L`. -/
theorem pageRank_ok {L : Nat → List Nat} (hn : 0 < G.nodes)
    (hL : ∀ x, x < G.nodes → G.listNb x = .ok (L x)) (hT : ∀ x, x < G.nodes → ∀ y ∈ L x, y < G.nodes)
    (conv alpha : F) (k : Nat) :
    ∃ p, G.pageRank conv k alpha = .ok p ∧ p.length = G.nodes ∧
      (p.sum = massAfter alpha ((G.nodes : F) *
          (1 / (((List.range G.nodes).filter (fun x => !(L x).isEmpty)).length : F))) k ∨
        ∃ j, j < k ∧ |p.sum - massAfter alpha ((G.nodes : F) *
          (1 / (((List.range G.nodes).filter (fun x => !(L x).isEmpty)).length : F))) j| < G.nodes * conv) ∧
      (0 ≤ alpha → alpha ≤ 1 → ∀ x ∈ p, 0 ≤ x) := by
  unfold pageRank
  rw [outLinks_ok (L := L) (fun x hx => hL x (List.mem_range.1 hx))]
  simp only [Res.ok_bind]
  have hlinks : Links G.nodes ((List.range G.nodes).map L) := by
    refine ⟨by simp, ?_⟩
    intro l hl v hv
    obtain ⟨x, hx, rfl⟩ := List.mem_map.1 hl
    exact hT x (List.mem_range.1 hx) v hv
  have hlen : ((((List.range G.nodes).map L).filter (fun l => !l.isEmpty)).length) =
      ((List.range G.nodes).filter (fun x => !(L x).isEmpty)).length := by
    rw [List.filter_map, List.length_map]; rfl
  rw [hlen]
  obtain ⟨p, a1, a2, a3, a4⟩ := prLoop_ok hn hlinks (alpha := alpha) (conv := conv) k
    (List.replicate G.nodes (1 / (((List.range G.nodes).filter (fun x => !(L x).isEmpty)).length : F)))
    (by simp)
  refine ⟨p, a1, a2, ?_, fun h1 h2 => a4 h1 h2 ?_⟩
  · rw [List.sum_replicate, nsmul_eq_mul] at a3
    exact a3
  · intro x hx
    rw [List.eq_of_mem_replicate hx]
    positivity

end GraphI
end DK2
