import Verif.PropsMunro
import Verif.MunroLate

/-! `DKtree_delay_munro` and the 32-bit size estimate of its merge (union_support.hpp:38-50): a graph of 65536 vertices and
arity 16 cannot take 540000 edges in different 16 × 16 blocks. -/

namespace DK2
open Bits

namespace DKM

theorem run_ub_append (P : MPar) (n : Nat) (a b : List Op) (h : run P n a = .ub) : run P n (a ++ b) = .ub := by
  induction b using List.reverseRecOn with
  | nil => rw [List.append_nil]; exact h
  | append_singleton b o ih =>
    rw [← List.append_assoc, run_snoc, ih]; rfl

theorem cap_twenty {m : Nat} (h1 : 8 ≤ m) (h2 : m ≤ 1048576) : realSizing.maxsz m 0 ≤ 5242 := by
  have h3 : realSizing.maxsz 1048576 0 = 5242 := maxsz_eq (a := 20) (b := 1) (c := 20) (d := 1) (by norm_num)
    (by norm_num) (by norm_num) (by norm_num) (by norm_num) (by norm_num) (by norm_num) (by norm_num)
  have := realSizing_mono m 1048576 h1 h2
  omega

/-- A stored tree of edges in different blocks has at most 65793 edges. -/
theorem level_le {nd : Bool} {E : List Edge} (hE : ∀ e ∈ E, InRange 65536 e)
    (hd : (E.dedup.map (fun e => (e.1 / 16, e.2 / 16))).Nodup) (hne : E ≠ [])
    (hs : E.length ≤ 5244 ∨ (lBits ((real 16 nd).k * (real 16 nd).k) (below (real 16 nd).k ((real 16 nd).H 65536) E)
      ((real 16 nd).H 65536)).length ≤ US.geo ((real 16 nd).k * (real 16 nd).k) ((real 16 nd).H 65536 + 1) % 2 ^ 32) :
    E.dedup.length ≤ 65793 := by
  rcases hs with hs | hs
  · have := (List.dedup_sublist E).length_le
    omega
  · have hH : (real 16 nd).H 65536 = 4 := by
      show max 1 (Nat.clog 16 65536) = 4
      rw [show Nat.clog 16 65536 = 4 by decide +kernel]; rfl
    rw [hH] at hs
    have hk : (real 16 nd).k = 16 := rfl
    rw [hk] at hs
    have hest : US.geo (16 * 16) (4 + 1) % 2 ^ 32 = 16843008 := by decide
    rw [hest] at hs
    have h1 := blocks_le (k := 16) (h := 3) (n := 65536) (E := E.dedup) (by norm_num) (by norm_num) (by norm_num)
      (fun e he => hE e (List.mem_dedup.1 he)) hd
    have h2 : (BT.encode 16 (3 + 1) 65536 E.dedup).L.length ≤ (lBits (16 * 16) (below 16 4 E) 4).length := by
      show (lBits _ _ _).length ≤ (lBits _ _ _).length
      rw [US.lBits_length, US.lBits_length]
      refine Nat.mul_le_mul_left _ (US.mono_len (US.below_mono ?_) (below_closed _ _ _) (below_nil ?_) _)
      · intro e he; exact List.mem_dedup.1 he
      · intro h0; exact hne (List.dedup_eq_nil E |>.1 h0)
    omega

theorem wt_le {c : Nat} : ∀ {es : List (Option (List Edge))}, (∀ E, some E ∈ es → E.dedup.length ≤ c) →
    wt es ≤ es.length * c := by
  intro es
  induction es with
  | nil => intro _; simp [wt]
  | cons o es ih =>
    intro h
    have h1 := ih (fun E hE => h E (List.mem_cons_of_mem _ hE))
    have h2 : o.elim 0 (fun E => E.dedup.length) ≤ c := by
      cases o with
      | none => simp
      | some E => exact h E (by simp)
    simp only [wt, List.map_cons, List.sum_cons, List.length_cons, Nat.add_mul, Nat.one_mul] at h1 ⊢
    omega

end DKM

open DKM DK

/-- C85, the refutation: on 65536 vertices with arity 16 every insertion history of 540000 or more edges in different
16 × 16 blocks ends in undefined behaviour (a write behind the end of a bit vector), in both builds. -/
theorem C85_over (nd : Bool) {W : List Edge} (hlen : 540000 ≤ W.length) (hr : ∀ e ∈ W, InRange 65536 e)
    (hd : (W.map (fun e => (e.1 / 16, e.2 / 16))).Nodup) : DKM.run (real 16 nd) 65536 (inserts W) = .ub := by
  -- it is enough to look at the first 540000
  obtain ⟨A, B, rfl, hA⟩ : ∃ A B, W = A ++ B ∧ A.length = 540000 :=
    ⟨W.take 540000, W.drop 540000, (List.take_append_drop _ _).symm, by rw [List.length_take]; omega⟩
  have hsplit : inserts (A ++ B) = inserts A ++ inserts B := by simp [inserts]
  rw [hsplit]
  refine run_ub_append _ _ _ _ ?_
  have hrA : ∀ e ∈ A, InRange 65536 e := fun e he => hr e (List.mem_append_left _ he)
  have hdA : (A.map (fun e => (e.1 / 16, e.2 / 16))).Nodup := by
    rw [List.map_append] at hd; exact hd.of_append_left
  have hc : Cond (real 16 nd) 65536 540000 := real_cond nd (by norm_num) (by norm_num) (by norm_num)
  have hin : OpsInRange 65536 (inserts A) := by
    intro o ho
    obtain ⟨x, hx, rfl⟩ := List.mem_map.1 ho
    exact hrA x hx
  have hadd : added (inserts A) = A := added_inserts A
  rcases run_returns_any (P := real 16 nd) (L := RS) (N := 540000) realSizing_top hc.base (real_near (by norm_num))
    (by show 8 ≤ 16 * 16; norm_num) (Or.inl (le_refl _)) hin (by rw [hadd, hA]) (hc.mono (by rw [hadd, hA])).est with
    ⟨h1, _⟩ | ⟨d, es, p, h1, t, hh, _, hcap, hsm⟩
  · exact h1
  exfalso
  rw [hadd] at t hh hsm
  have hsmall := hsm 5244 (by
    intro m hm
    have := cap_twenty (m := max 65536 m) (by omega) (by omega)
    show realSizing.maxsz _ 0 + 2 ≤ _
    omega)
  have hnd : A.Nodup := List.Nodup.of_map _ hdA
  have hinj : ∀ X : List Edge, X.Nodup → (∀ x ∈ X, x ∈ A) → (X.map (fun e => (e.1 / 16, e.2 / 16))).Nodup := by
    intro X hX hsub
    refine List.Nodup.map_on ?_ hX
    intro a ha b hb hab
    exact List.inj_on_of_nodup_map hdA (hsub a ha) (hsub b hb) hab
  have hlv : ∀ E, some E ∈ es → E.dedup.length ≤ 65793 := by
    intro E hE
    refine level_le (nd := nd) (t.inv.lv.ne E hE).2 (hinj _ (List.nodup_dedup E) ?_) (t.inv.lv.ne E hE).1 (hsmall E hE)
    intro x hx
    exact t.sound x (Or.inr (Or.inr ⟨E, hE, List.mem_dedup.1 hx⟩))
  have hwt := wt_le hlv
  rw [t.inv.lv.len] at hwt
  have hsub : A ⊆ d.c0.live ++ (batch p ++ lvEdges es) := by
    intro x hx
    rw [List.mem_append, List.mem_append, mem_lvEdges]
    exact hh x hx
  have hle := (List.subperm_of_subset hnd hsub).length_le
  rw [List.length_append, List.length_append, lvEdges_length, hA] at hle
  have hhi := t.hi
  rw [hA] at hhi
  have hm := cap_twenty (m := max 65536 d.nTotal) (by omega) (by omega)
  have hcp := hcap _ (le_refl _)
  have hl : d.c0.live.length ≤ realSizing.maxsz (max 65536 d.nTotal) 0 + 1 := hcp.1
  have hb : (batch p).length ≤ realSizing.maxsz (max 65536 d.nTotal) 0 + 2 := by
    cases hp : p with
    | none => simp [batch]
    | some q => exact hcp.2 q hp
  have hRS : RS = 8 := rfl
  rw [hRS] at hwt
  omega

/-- C85: every insertion history on a graph of valid vertices is free of undefined behaviour, however long it is. -/
def C85_Full : Prop :=
  ∀ (nd : Bool) (k n : Nat) (ops : List Op), 2 ≤ k → k ≤ 16 → 2 ≤ n → OpsInRange n ops → DKM.run (real k nd) n ops ≠ .ub

/-- C85 is false. -/
theorem C85_refuted : ¬ C85_Full := by
  intro h
  have hr : ∀ e ∈ wBlocks 540000, InRange 65536 e := wBlocks_range (by norm_num)
  refine h false 16 65536 (inserts (wBlocks 540000)) (by norm_num) (by norm_num) (by norm_num) ?_
    (C85_over false ?_ hr (wBlocks_nodup _))
  · intro o ho
    obtain ⟨x, hx, rfl⟩ := List.mem_map.1 ho
    exact hr x hx
  · rw [wBlocks, List.length_map, List.length_range]

/-- C85 within the limit of the estimate: no history is undefined, for the arities and limits of `Ctx`: all of `k = 2` with
`log₂ n · N ≤ 357913941` insertions, every `k ≤ 16` with `k² · log_k n · N ≤ 16843008`. -/
theorem C85_limit_partial {k n N : Nat} {nd : Bool} (hk : 2 ≤ k) (hk' : k ≤ 16) (hn : 2 ≤ n) (hn' : n ≤ 2 ^ 32)
    (hlim : k * k * (max 1 (Nat.clog k n) * N) ≤ 16843008 ∨ (k = 2 ∧ max 1 (Nat.clog 2 n) * N ≤ 357913941))
    {ops : List Op} (hr : OpsInRange n ops) (hN : (added ops).length ≤ N) : DKM.run (real k nd) n ops ≠ .ub := by
  have hc : Ctx (real k nd) n N := by
    rcases hlim with h | h
    · exact real_ctx_any nd hk hk' hn hn' h
    · exact real_ctx nd hk hn (Or.inr h)
  intro hu
  rcases C54_outcome_partial hc hr hN with ⟨_, h⟩ | ⟨d, h⟩
  · rw [h] at hu; cases hu
  · rw [h] at hu; cases hu

/-- C85, small graphs: when the trees of a full graph have fewer than `2³²` bits (`k^(2h+4) ≤ 2³²` for the height `h`), no
history of any length is undefined. -/
theorem C85_small_partial {k n : Nat} {nd : Bool} (hk : 2 ≤ k) (hn : 2 ≤ n)
    (hs : (k * k) ^ (max 1 (Nat.clog k n) + 2) ≤ 2 ^ 32) {ops : List Op} (hr : OpsInRange n ops) :
    DKM.run (real k nd) n ops ≠ .ub := by
  intro hu
  rcases C54_outcome_partial (real_ctx nd hk hn (Or.inl hs)) hr (le_refl _) with ⟨_, h⟩ | ⟨d, h⟩
  · rw [h] at hu; cases hu
  · rw [h] at hu; cases hu

/-- C85, beyond the limit, for the powers of two: undefined behaviour is the only other outcome than those of C54, and whatever
returns is right: every answer of `contains` is exact when no merge is pending (assertions enabled). -/
theorem C85_right_partial {k n : Nat} (hk : k = 2 ∨ k = 4 ∨ k = 8 ∨ k = 16) (hn : 2 ≤ n) {ops : List Op}
    (hr : OpsInRange n ops) {d : DKM} (h : DKM.run (real k false) n ops = .ok d) (hf : d.us.finish = true) {e : Edge}
    (he : InRange n e) : d.contains (real k false) e = .ok (decide (Op.add e ∈ ops)) :=
  C51 (real_cond_pow (N := (added ops).length) false hk hn) hr (le_refl _) h hf he

/-- The limits are met by graphs of a million vertices and by full graphs. -/
example : 7 * 7 * (max 1 (Nat.clog 7 1000000) * 42000) ≤ 16843008 ∧ max 1 (Nat.clog 2 1024) * 35000000 ≤ 357913941 ∧
    (2 * 2) ^ (max 1 (Nat.clog 2 16384) + 2) ≤ 2 ^ 32 := by
  rw [show Nat.clog 7 1000000 = 8 by decide +kernel, show Nat.clog 2 1024 = 10 by decide +kernel,
    show Nat.clog 2 16384 = 14 by decide +kernel]
  norm_num

end DK2
