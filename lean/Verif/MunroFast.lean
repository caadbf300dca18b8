import Verif.MunroLate
import Mathlib.Data.Nat.Digits.Lemmas
/-!
# Counting the groups of a tree, and following a plan, without building trees
-/

namespace DK2
open Bits

namespace Bits

/-- The number of the ancestor at depth `d` of the cell of `e`. -/
def code (k h d : Nat) (e : Edge) : Nat := Nat.ofDigits (k * k) ((path k h e).take d)

/-- The distinct elements, in a single pass. -/
def uniq : List Nat → List Nat → List Nat
  | [], s => s
  | c :: l, s => if s.any (fun x => Nat.beq x c) then uniq l s else uniq l (c :: s)

theorem uniq_spec : ∀ (l s : List Nat), s.Nodup → (uniq l s).Nodup ∧ ∀ x, x ∈ uniq l s ↔ x ∈ l ∨ x ∈ s := by
  intro l
  induction l with
  | nil => intro s hs; exact ⟨hs, fun x => by simp [uniq]⟩
  | cons c l ih =>
    intro s hs
    rw [uniq]
    have hany : (s.any (fun x => Nat.beq x c) = true) ↔ c ∈ s := by
      rw [List.any_eq_true]
      constructor
      · rintro ⟨x, hx, he⟩; rw [Nat.eq_of_beq_eq_true he] at hx; exact hx
      · intro hc; exact ⟨c, hc, Nat.beq_refl c⟩
    split
    · rename_i hc
      rw [hany] at hc
      obtain ⟨h1, h2⟩ := ih s hs
      refine ⟨h1, fun x => ?_⟩
      rw [h2, List.mem_cons]
      constructor
      · rintro (h | h) <;> tauto
      · rintro ((rfl | h) | h) <;> tauto
    · rename_i hc
      rw [hany] at hc
      obtain ⟨h1, h2⟩ := ih (c :: s) (List.nodup_cons.2 ⟨hc, hs⟩)
      refine ⟨h1, fun x => ?_⟩
      rw [h2, List.mem_cons, List.mem_cons]
      tauto

/-- The number of nodes at depth `d` with a group. -/
theorem nodes_card {k h d : Nat} (hk : 2 ≤ k) (hd : 0 < d) (hdh : d ≤ h) (E : List Edge) :
    (nodes (k * k) (below k h E) d).length = (uniq (E.map (code k h d)) []).length := by
  have hkk : 1 < k * k := by nlinarith
  obtain ⟨u1, u2⟩ := uniq_spec (E.map (code k h d)) [] List.nodup_nil
  have hm := fun p => mem_nodes_iff (b := k * k) (below_closed k h E) hd (p := p)
  have hinj : ∀ p ∈ nodes (k * k) (below k h E) d, ∀ q ∈ nodes (k * k) (below k h E) d,
      Nat.ofDigits (k * k) p = Nat.ofDigits (k * k) q → p = q := by
    intro p hp q hq he
    obtain ⟨a1, _, a3⟩ := (hm p).1 hp
    obtain ⟨b1, _, b3⟩ := (hm q).1 hq
    exact Nat.ofDigits_inj_of_len_eq hkk (by rw [a1, b1]) a3 b3 he
  have hnod : ((nodes (k * k) (below k h E) d).map (Nat.ofDigits (k * k))).Nodup :=
    List.Nodup.map_on hinj (nodes_nodup _ _ _)
  rw [← List.length_map (f := Nat.ofDigits (k * k))]
  refine List.Perm.length_eq ((List.perm_ext_iff_of_nodup hnod u1).2 ?_)
  intro x
  rw [u2, List.mem_map, List.mem_map]
  constructor
  · rintro ⟨p, hp, rfl⟩
    obtain ⟨a1, a2, _⟩ := (hm p).1 hp
    obtain ⟨e, he, hpre⟩ := below_iff.1 a2
    refine Or.inl ⟨e, he, ?_⟩
    unfold code
    rw [← a1, ← List.prefix_iff_eq_take.1 hpre]
  · rintro (⟨e, he, rfl⟩ | h)
    · refine ⟨(path k h e).take d, (hm _).2 ⟨?_, ?_, ?_⟩, rfl⟩
      · rw [List.length_take, path_length]; omega
      · exact below_iff.2 ⟨e, he, List.take_prefix _ _⟩
      · exact fun c hc => path_lt (by omega) e c (List.mem_of_mem_take hc)
    · cases h

/-- The number of groups in the levels below `d`. -/
def fcnt (k h : Nat) (E : List Edge) : Nat → Nat
  | 0 => 0
  | 1 => 1
  | d + 2 => fcnt k h E (d + 1) + (uniq (E.map (code k h (d + 1))) []).length

theorem cnt_eq_fcnt {k h : Nat} (hk : 2 ≤ k) (E : List Edge) : ∀ d, d ≤ h → cnt (k * k) (below k h E) d = fcnt k h E d := by
  intro d
  induction d with
  | zero => intro _; rfl
  | succ d ih =>
    intro hd
    cases d with
    | zero => rfl
    | succ d =>
      rw [cnt, ih (by omega), nodes_card hk (by omega) (by omega), fcnt]

end Bits

namespace DKM

/-- `selectLevel` from the sizes of the levels. -/
def fsel (S : Sizing) (m : Nat) : List (Option (List Edge)) → Nat → Nat → Option Nat
  | [], _, _ => none
  | o :: ks, i, acc =>
    if S.maxsz m (i + 1) > acc + o.elim 0 List.length + 1 then some i
    else fsel S m ks (i + 1) (acc + o.elim 0 List.length)

theorem sel_eq_fsel (S : Sizing) (m k h n : Nat) : ∀ (ls : List (Option (List Edge))) (i acc : Nat),
    (∀ E, some E ∈ ls → E.Nodup) → selectLevel S m (US.stored k h n ls) i acc = fsel S m ls i acc := by
  intro ls
  induction ls with
  | nil => intros; rfl
  | cons o ls ih =>
    intro i acc hn
    have ho : (Option.map (BT.encode k h n) o).elim 0 BT.ne = o.elim 0 List.length := by
      cases o with
      | none => rfl
      | some E =>
        show E.dedup.length = E.length
        rw [(hn E (by simp)).dedup]
    show selectLevel S m (Option.map (BT.encode k h n) o :: US.stored k h n ls) i acc = _
    rw [selectLevel, fsel]
    simp only [ho]
    rw [ih _ _ (fun E hE => hn E (by simp [hE]))]

/-- One insertion, from the sizes of the levels. -/
def Plan.fstep (S : Sizing) (n : Nat) (s : Plan) (e : Edge) : Plan :=
  if s.live.length < S.maxsz (max n s.nT) 0 then ⟨s.ls, s.live ++ [e], s.nT + 1⟩
  else
    match fsel S (max n s.nT) s.ls 0 (S.maxsz (max n s.nT) 0) with
    | none => s
    | some i => ⟨US.merged (s.live ++ [e]) s.ls i, [], s.nT + 1⟩

/-- The edges of the levels. -/
def flat (ls : List (Option (List Edge))) : List Edge := (ls.map (fun o => o.getD [])).flatten

theorem acc_perm (F : List Edge) (ls : List (Option (List Edge))) (i : Nat) :
    (US.acc F ls i).Perm (F ++ flat (ls.take i)) := by
  induction i with
  | zero => simp [US.acc, flat]
  | succ i ih =>
    rw [US.acc, List.take_add_one]
    have hf : flat (ls.take i ++ ls[i]?.toList) = flat (ls.take i) ++ flat (ls[i]?.toList) := by simp [flat]
    rw [hf]
    cases h : ls[i]? with
    | none => simpa [flat] using ih
    | some o =>
      cases o with
      | none => simpa [flat] using ih
      | some E =>
        have := ih.append_right E
        simpa [flat] using this

theorem merged_perm (F : List Edge) (ls : List (Option (List Edge))) (i : Nat) :
    (flat (US.merged F ls i)).Perm (F ++ flat ls) := by
  have h1 : flat (US.merged F ls i) = US.acc F ls (i + 1) ++ flat (ls.drop (i + 1)) := by
    unfold US.merged flat
    simp
  have h2 : flat ls = flat (ls.take (i + 1)) ++ flat (ls.drop (i + 1)) := by
    unfold flat
    rw [← List.flatten_append, ← List.map_append, List.take_append_drop]
  rw [h1, h2, ← List.append_assoc]
  exact (acc_perm F ls (i + 1)).append_right _

/-- The plan, from the sizes of the levels. -/
def fplan (S : Sizing) (n : Nat) (G : List Edge) : Plan := G.foldl (Plan.fstep S n) ⟨List.replicate RS none, [], 0⟩

/-- For distinct edges the two plans agree, and the plan holds edges of the history, each once. -/
theorem plan_eq_fplan (P : MPar) (n : Nat) {G : List Edge} (hG : G.Nodup) :
    plan P n G = fplan P.S n G ∧ ∃ G', G' ⊆ G ∧ (flat (plan P n G).ls ++ (plan P n G).live).Perm G' ∧ G'.Nodup := by
  induction G using List.reverseRecOn with
  | nil => exact ⟨rfl, [], List.nil_subset _, by simp [plan, flat], List.nodup_nil⟩
  | append_singleton G e ih =>
    rw [List.nodup_append] at hG
    obtain ⟨h1, G', h2, h3, h4⟩ := ih hG.1
    have hnod := h3.symm.nodup h4
    have hlev : ∀ E, some E ∈ (plan P n G).ls → E.Nodup := by
      intro E hE
      rw [List.nodup_append] at hnod
      refine List.Nodup.sublist ?_ hnod.1
      unfold flat
      obtain ⟨i, hi⟩ := List.mem_iff_getElem?.1 hE
      have : E ∈ (plan P n G).ls.map (fun o => o.getD []) := List.mem_map.2 ⟨some E, hE, rfl⟩
      exact List.sublist_flatten_of_mem this
    have hstep : (plan P n G).step P n e = (plan P n G).fstep P.S n e := by
      unfold Plan.step Plan.fstep
      rw [sel_eq_fsel _ _ _ _ _ _ _ _ hlev]
      split
      · rfl
      · cases fsel P.S (max n (plan P n G).nT) (plan P n G).ls 0 (P.S.maxsz (max n (plan P n G).nT) 0) <;> rfl
    have hp : plan P n (G ++ [e]) = (plan P n G).step P n e := by unfold plan; rw [List.foldl_append]; rfl
    have hf : fplan P.S n (G ++ [e]) = (fplan P.S n G).fstep P.S n e := by unfold fplan; rw [List.foldl_append]; rfl
    refine ⟨by rw [hp, hf, hstep, h1], ?_⟩
    have hne : e ∉ G' := fun hh => hG.2.2 e (h2 hh) e (by simp) rfl
    rw [hp]
    have hboth : (G' ++ [e]) ⊆ G ++ [e] ∧ (G' ++ [e]).Nodup := by
      refine ⟨?_, ?_⟩
      · intro x hx
        rw [List.mem_append] at hx ⊢
        exact hx.imp_left (fun h => h2 h)
      · rw [List.nodup_append]
        refine ⟨h4, List.nodup_singleton _, ?_⟩
        rintro x hx y hy rfl
        rw [List.mem_singleton] at hy
        subst hy
        exact hne hx
    unfold Plan.step
    split
    · refine ⟨G' ++ [e], hboth.1, ?_, hboth.2⟩
      simp only
      rw [← List.append_assoc]
      exact h3.append_right _
    · split
      · exact ⟨G', fun x hx => by simp [h2 hx], h3, h4⟩
      · rename_i i _
        refine ⟨G' ++ [e], hboth.1, ?_, hboth.2⟩
        simp only [List.append_nil]
        refine (merged_perm _ _ _).trans ?_
        rw [List.append_assoc]
        have h5 : ((plan P n G).live ++ ([e] ++ flat (plan P n G).ls)).Perm
            ((flat (plan P n G).ls ++ (plan P n G).live) ++ [e]) := by
          rw [← List.append_assoc]
          refine (List.perm_append_comm).trans ?_
          rw [List.append_assoc]
        exact h5.trans (h3.append_right _)

/-- `US.work` computed by counting. -/
def fwork (k h : Nat) (F : List Edge) (ls : List (Option (List Edge))) : Nat → Nat
  | 0 => 0
  | i + 1 =>
    match ls[i]? with
    | some (some _) => fwork k h F ls i + fcnt k h (US.acc F ls (i + 1)) h
    | _ => fwork k h F ls i

theorem work_eq_fwork {k h : Nat} (hk : 2 ≤ k) (F : List Edge) (ls : List (Option (List Edge))) (i : Nat) :
    US.work k h F ls i = fwork k h F ls i := by
  induction i with
  | zero => rfl
  | succ i ih =>
    rw [US.work, fwork, ih, cnt_eq_fcnt hk _ h (le_refl _)]
    rcases ls[i]? with _ | _ | E <;> rfl

/-- `grp` computed by counting. -/
def fgrp (k h : Nat) (es : List (Option (List Edge))) : Nat :=
  (es.map (fun o => o.elim 0 (fun E => fcnt k h E h))).sum

theorem grp_eq_fgrp {k h : Nat} (hk : 2 ≤ k) (es : List (Option (List Edge))) : grp k h es = fgrp k h es := by
  unfold grp fgrp
  congr 1
  apply List.map_congr_left
  intro o _
  cases o with
  | none => rfl
  | some E => exact cnt_eq_fcnt hk E h (le_refl _)

end DKM
end DK2
