import Verif.Munro
import Verif.PropsUnion
import Verif.C0Proofs
import Verif.RealSizing
/-!
# `DKtree_delay_munro`: the invariant
-/

namespace DK2
open Bits

/-! ### sizes of encoded trees -/

theorem nodes_le_edges {k h : Nat} {E : List Edge} (hE : E ≠ []) (d : Nat) :
    (nodes (k * k) (below k h E) d).length ≤ E.dedup.length := by
  have hpos : 0 < E.dedup.length := by
    obtain ⟨e, he⟩ := List.exists_mem_of_ne_nil E hE
    exact List.length_pos_of_mem (List.mem_dedup.2 he)
  by_cases hd : d = 0
  · subst hd; simp only [nodes, List.length_singleton]; exact hpos
  · have hsub : nodes (k * k) (below k h E) d ⊆ E.dedup.map (fun e => (path k h e).take d) := by
      intro p hp
      rw [mem_nodes_iff (below_closed k h E) (by omega)] at hp
      obtain ⟨h1, h2, _⟩ := hp
      rw [below_iff] at h2
      obtain ⟨e, he, hpre⟩ := h2
      refine List.mem_map.2 ⟨e, List.mem_dedup.2 he, ?_⟩
      rw [← h1]
      exact (List.prefix_iff_eq_take.1 hpre).symm
    have := (List.subperm_of_subset (nodes_nodup (k * k) (below k h E) d) hsub).length_le
    simpa using this

theorem cnt_le_edges {k h : Nat} {E : List Edge} (hE : E ≠ []) (d : Nat) :
    cnt (k * k) (below k h E) d ≤ d * E.dedup.length := by
  induction d with
  | zero => simp [cnt]
  | succ d ih =>
    rw [cnt, Nat.succ_mul]
    exact Nat.add_le_add ih (nodes_le_edges hE d)

/-- `get_ones` of an encoded tree: all its bits. -/
theorem getOnes_encode {k h n : Nat} (hh : 1 ≤ h) (E : List Edge) :
    US.getOnes (BT.encode k h n E) = k * k * cnt (k * k) (below k h E) h := by
  obtain ⟨j, rfl⟩ : ∃ j, h = j + 1 := ⟨h - 1, by omega⟩
  unfold US.getOnes BT.encode
  simp only
  rw [US.tBits_length, US.lBits_length, cnt]
  simp only [Nat.add_sub_cancel]
  ring

namespace DKM

/-- An edge of one of the levels. -/
def edgesIn (es : List (Option (List Edge))) (e : Edge) : Prop := ∃ E, some E ∈ es ∧ e ∈ E

/-- The number of edges stored in the levels, level by level. -/
def wt (es : List (Option (List Edge))) : Nat := (es.map (fun o => o.elim 0 (fun E => E.dedup.length))).sum

/-- The number of node groups of the trees in the levels. -/
def grp (k h : Nat) (es : List (Option (List Edge))) : Nat :=
  (es.map (fun o => o.elim 0 (fun E => cnt (k * k) (below k h E) h))).sum

/-- The number of levels that hold a tree. -/
def occ {α : Type} (es : List (Option α)) : Nat := es.countP Option.isSome

/-- Levels: non-empty trees over `n` vertices. -/
structure Lv (n : Nat) (es : List (Option (List Edge))) : Prop where
  len : es.length = RS
  ne : ∀ E, some E ∈ es → E ≠ [] ∧ ∀ e ∈ E, InRange n e

theorem dedup_append_le (A B : List Edge) : (A ++ B).dedup.length ≤ A.length + B.dedup.length := by
  have hsub : (A ++ B).dedup ⊆ A ++ B.dedup := by
    intro e he
    rw [List.mem_dedup, List.mem_append] at he
    rw [List.mem_append, List.mem_dedup]
    exact he
  have := (List.subperm_of_subset (List.nodup_dedup _) hsub).length_le
  simpa using this

theorem dedup_append_le' (A B : List Edge) : (A ++ B).dedup.length ≤ A.dedup.length + B.dedup.length := by
  have hsub : (A ++ B).dedup ⊆ A.dedup ++ B.dedup := by
    intro e he
    rw [List.mem_dedup, List.mem_append] at he
    rw [List.mem_append, List.mem_dedup, List.mem_dedup]
    exact he
  have := (List.subperm_of_subset (List.nodup_dedup _) hsub).length_le
  simpa using this

theorem wt_split (es : List (Option (List Edge))) (i : Nat) : wt es = wt (es.take i) + wt (es.drop i) := by
  unfold wt
  rw [← List.sum_append, ← List.map_append, List.take_append_drop]

theorem acc_dedup (F : List Edge) (es : List (Option (List Edge))) (i : Nat) :
    (US.acc F es i).dedup.length ≤ F.length + wt (es.take i) := by
  induction i with
  | zero => simp [US.acc, wt]; exact (List.dedup_sublist F).length_le
  | succ i ih =>
    rw [US.acc, List.take_add_one]
    split
    · rename_i E hE
      have := dedup_append_le' (US.acc F es i) E
      rw [hE]
      simp only [wt, List.map_append, List.sum_append, Option.toList, List.map_cons, List.map_nil, List.sum_cons,
        List.sum_nil, Option.elim] at ih ⊢
      omega
    · simp only [wt, List.map_append, List.sum_append] at ih ⊢
      omega

/-- Merging does not increase the number of stored edges beyond the new ones. -/
theorem wt_merged {F : List Edge} {es : List (Option (List Edge))} {m : Nat} :
    wt (US.merged F es m) ≤ F.length + wt es := by
  have h1 := acc_dedup F es (m + 1)
  have h2 := wt_split es (m + 1)
  unfold US.merged
  simp only [wt, List.map_append, List.sum_append, List.map_replicate, List.sum_replicate, Option.elim, List.map_cons,
    List.sum_cons, smul_eq_mul, Nat.mul_zero] at h1 h2 ⊢
  omega

theorem wt_rest {es : List (Option (List Edge))} {i : Nat} : wt (US.rest es i) ≤ wt es := by
  have h2 := wt_split es i
  unfold US.rest
  simp only [wt, List.map_append, List.sum_append, List.map_replicate, List.sum_replicate, Option.elim,
    smul_eq_mul, Nat.mul_zero] at h2 ⊢
  omega

theorem edgesIn_merged {F : List Edge} {es : List (Option (List Edge))} {m : Nat} {e : Edge} :
    edgesIn (US.merged F es m) e ↔ e ∈ F ∨ edgesIn es e := by
  have hacc : e ∈ US.acc F es (m + 1) ↔ e ∈ F ∨ edgesIn (es.take (m + 1)) e := by
    rw [US.acc_eq, List.mem_append]
    refine or_congr_right ?_
    simp only [List.mem_flatten, List.mem_map]
    constructor
    · rintro ⟨l, ⟨o, ho, rfl⟩, he⟩
      cases o with
      | none => cases he
      | some E => exact ⟨E, ho, he⟩
    · rintro ⟨E, hE, he⟩
      exact ⟨E, ⟨some E, hE, rfl⟩, he⟩
  have hsplit : edgesIn es e ↔ edgesIn (es.take (m + 1)) e ∨ edgesIn (es.drop (m + 1)) e := by
    unfold edgesIn
    conv_lhs => rw [← List.take_append_drop (m + 1) es]
    simp only [List.mem_append]
    constructor
    · rintro ⟨E, h1 | h1, h2⟩
      · exact Or.inl ⟨E, h1, h2⟩
      · exact Or.inr ⟨E, h1, h2⟩
    · rintro (⟨E, h1, h2⟩ | ⟨E, h1, h2⟩)
      · exact ⟨E, Or.inl h1, h2⟩
      · exact ⟨E, Or.inr h1, h2⟩
  rw [hsplit, ← or_assoc, ← hacc]
  unfold edgesIn US.merged
  constructor
  · rintro ⟨E, h1, h2⟩
    rcases List.mem_append.1 h1 with h3 | h3
    · simp [List.mem_replicate] at h3
    · rcases List.mem_cons.1 h3 with h4 | h4
      · cases h4; exact Or.inl h2
      · exact Or.inr ⟨E, h4, h2⟩
  · rintro (h1 | ⟨E, h1, h2⟩)
    · exact ⟨_, List.mem_append_right _ (List.mem_cons_self ..), h1⟩
    · exact ⟨E, List.mem_append_right _ (List.mem_cons_of_mem _ h1), h2⟩

theorem edgesIn_rest {es : List (Option (List Edge))} {i : Nat} {e : Edge} (h : edgesIn (US.rest es i) e) :
    edgesIn es e := by
  obtain ⟨E, h1, h2⟩ := h
  rcases List.mem_append.1 h1 with h3 | h3
  · simp [List.mem_replicate] at h3
  · exact ⟨E, List.mem_of_mem_drop h3, h2⟩

theorem Lv.merged {n : Nat} {F : List Edge} {es : List (Option (List Edge))} {m : Nat} (h : Lv n es) (hm : m < RS)
    (hF : F ≠ []) (hr : ∀ e ∈ F, InRange n e) : Lv n (US.merged F es m) := by
  have hacc : US.acc F es (m + 1) ≠ [] ∧ ∀ e ∈ US.acc F es (m + 1), InRange n e := by
    rw [US.acc_eq]
    refine ⟨by simp [hF], ?_⟩
    intro e he
    rcases List.mem_append.1 he with h1 | h1
    · exact hr e h1
    · simp only [List.mem_flatten, List.mem_map] at h1
      obtain ⟨l, ⟨o, ho, rfl⟩, h2⟩ := h1
      cases o with
      | none => cases h2
      | some E => exact (h.ne E (List.mem_of_mem_take ho)).2 e h2
  constructor
  · have := h.len
    simp only [US.merged, List.length_append, List.length_replicate, List.length_cons, List.length_drop]
    omega
  · intro E hE
    rcases List.mem_append.1 hE with h3 | h3
    · simp [List.mem_replicate] at h3
    · rcases List.mem_cons.1 h3 with h4 | h4
      · cases h4; exact hacc
      · exact h.ne E (List.mem_of_mem_drop h4)

theorem Lv.rest {n : Nat} {es : List (Option (List Edge))} {i : Nat} (h : Lv n es) (hi : i ≤ RS) :
    Lv n (US.rest es i) := by
  constructor
  · rw [US.rest_length (by rw [h.len]; exact hi), h.len]
  · intro E hE
    rcases List.mem_append.1 hE with h3 | h3
    · simp [List.mem_replicate] at h3
    · exact h.ne E (List.mem_of_mem_drop h3)

/-! ### work and budget -/

theorem acc_cnt {k h : Nat} {F : List Edge} {es : List (Option (List Edge))} (hF : F ≠ [])
    (hE : ∀ E, some E ∈ es → E ≠ []) (i : Nat) :
    cnt (k * k) (below k h (US.acc F es i)) h ≤ cnt (k * k) (below k h F) h + grp k h (es.take i) := by
  have hne : ∀ i, US.acc F es i ≠ [] := by
    intro i h0
    obtain ⟨e, he⟩ := List.exists_mem_of_ne_nil F hF
    have := US.acc_sub (F := F) (es := es) (Nat.zero_le i) e he
    rw [h0] at this; cases this
  induction i with
  | zero => simp [US.acc, grp]
  | succ i ih =>
    rw [List.take_add_one]
    cases hi : es[i]? with
    | none =>
      have : US.acc F es (i + 1) = US.acc F es i := by rw [US.acc, hi]
      rw [this]; simpa [grp] using ih
    | some o =>
      cases o with
      | none =>
        have : US.acc F es (i + 1) = US.acc F es i := by rw [US.acc, hi]
        rw [this]; simpa [grp] using ih
      | some E =>
        have hun : below k h (US.acc F es (i + 1)) = US.un (below k h (US.acc F es i)) (below k h E) := by
          funext p; rw [US.acc_succ_some hi, below_append]; rfl
        have hEne := hE E (List.mem_of_getElem? hi)
        have := US.un_cnt (b := k * k) (below_closed k h (US.acc F es i)) (below_closed k h E)
          (below_nil (hne i)) (below_nil hEne) h
        rw [hun]
        simp only [grp, List.map_append, List.sum_append, Option.toList, List.map_cons, List.map_nil, List.sum_cons,
          List.sum_nil, Option.elim] at ih ⊢
        omega

theorem work_occ {k h : Nat} {F : List Edge} {es : List (Option (List Edge))} (hF : F ≠ []) (i j : Nat)
    (hij : i ≤ j) : US.work k h F es i ≤ occ (es.take i) * cnt (k * k) (below k h (US.acc F es j)) h := by
  have hne : ∀ i, US.acc F es i ≠ [] := by
    intro i h0
    obtain ⟨e, he⟩ := List.exists_mem_of_ne_nil F hF
    have := US.acc_sub (F := F) (es := es) (Nat.zero_le i) e he
    rw [h0] at this; cases this
  induction i with
  | zero => simp [US.work]
  | succ i ih =>
    rw [List.take_add_one]
    have ih' := ih (by omega)
    cases hi : es[i]? with
    | none =>
      have : US.work k h F es (i + 1) = US.work k h F es i := by rw [US.work, hi]
      rw [this]; simpa using ih'
    | some o =>
      cases o with
      | none =>
        have : US.work k h F es (i + 1) = US.work k h F es i := by rw [US.work, hi]
        rw [this]; simpa [occ] using ih'
      | some E =>
        rw [US.work_succ_some hi]
        have hm := US.mono_cnt (b := k * k) (US.below_mono (k := k) (h := h) (US.acc_sub (F := F) (es := es) hij))
          (below_closed k h _) (below_nil (hne (i + 1))) h
        have : occ (es.take i ++ (some (some E)).toList) = occ (es.take i) + 1 := by
          simp [occ]
        rw [this, Nat.succ_mul]
        omega

theorem totalIter_eq {k h n : Nat} (hh : 1 ≤ h) {F : List Edge} {es : List (Option (List Edge))}
    {m : Nat} (hk : 0 < k) : US.totalIter (US.stored k h n es) m (BT.encode k h n F) =
      k * k * (cnt (k * k) (below k h F) h + grp k h (es.take (m + 1))) := by
  have hs : ∀ ls : List (Option (List Edge)),
      (((US.stored k h n ls).map (fun o => match o with | some t => US.getOnes t | none => 0)).sum) =
        k * k * grp k h ls := by
    intro ls
    induction ls with
    | nil => simp [US.stored, grp]
    | cons o ls ih =>
      simp only [US.stored, grp, List.map_cons, List.sum_cons, Nat.mul_add] at ih ⊢
      rw [ih]
      congr 1
      cases o with
      | none => simp
      | some E => simp [getOnes_encode hh]
  have ht : (US.stored k h n es).take (m + 1) = US.stored k h n (es.take (m + 1)) := by
    simp [US.stored, List.map_take]
  have hpos : 0 < cnt (k * k) (below k h F) h := US.cnt_pos hh
  have hkk : 0 < k * k := Nat.mul_pos hk hk
  unfold US.totalIter
  simp only
  rw [ht, getOnes_encode hh]
  generalize hx : (List.map (β := Nat) _ (US.stored k h n (es.take (m + 1)))).sum = x
  have hx' : x = k * k * grp k h (es.take (m + 1)) := hx.symm.trans (hs _)
  rw [hx', if_neg]
  · ring
  · have := Nat.mul_pos hkk hpos
    omega

theorem iterSize_mul {t c : Nat} (hc : 0 < c) : t ≤ c * US.iterSize t c := by
  unfold US.iterSize
  have h1 := Nat.div_add_mod t c
  have h2 := Nat.mod_lt t hc
  split
  · rename_i h0; rw [h0] at h1; simp only [Nat.add_zero] at h1 ⊢; omega
  · rw [Nat.mul_add, Nat.mul_one]; omega

/-- A union over at most `k²` trees is no more work than the bits of its inputs. -/
theorem work_le {k h n : Nat} (hh : 1 ≤ h) (hk : 0 < k) {F : List Edge} {es : List (Option (List Edge))}
    {m : Nat} (hF : F ≠ []) (hE : ∀ E, some E ∈ es → E ≠ []) (ho : occ (es.take (m + 1)) ≤ k * k) :
    US.work k h F es (m + 1) ≤ US.totalIter (US.stored k h n es) m (BT.encode k h n F) := by
  rw [totalIter_eq hh hk]
  have h1 := work_occ (k := k) (h := h) (es := es) hF (m + 1) (m + 1) (le_refl _)
  have h2 := acc_cnt (k := k) (h := h) hF hE (m + 1)
  exact le_trans h1 (Nat.mul_le_mul ho h2)

end DKM
end DK2
