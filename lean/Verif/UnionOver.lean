import Verif.PropsUnion
import Mathlib.Data.List.Perm.Subperm
/-!
# `k2_tree_union_support` when the size estimate is too small (C40, C83)
-/

namespace DK2
namespace US
open Bits

variable {b h : Nat} {A B : List Nat → Bool} {t tB : BT} {cT cL : Nat}

/-- The children of a node for which the result vectors have no room: the first child present is written out of bounds. -/
theorem children_over (hA : Enc b h A t) (hB : Enc b h B tB) {d : Nat} {x y : List (List Nat)} {p : List Nat}
    (hd : d < h) (hs : nodes b (un A B) d = x ++ p :: y) : ∀ (f : Nat) {s : US} {c : Nat}, s.tmp = t →
    s.pA = b * (cnt b A d + (x.filter A).length) + (if A p then c else 0) →
    s.pB = b * (cnt b B d + (x.filter B).length) + (if B p then c else 0) →
    (d + 1 < h → s.Ct.length ≤ s.idxT) → (¬ d + 1 < h → s.Cl.length ≤ s.idxL) → c + f = b →
    (∃ c', c ≤ c' ∧ c' < b ∧ un A B (p ++ [c']) = true) →
    children h tB (tag A B d p) f s = .ub := by
  have hsA : ∀ q, A q = true → un A B q = true := by intro q hq; simp [un, hq]
  have hsB : ∀ q, B q = true → un A B q = true := by intro q hq; simp [un, hq]
  intro f
  induction f with
  | zero => intro s c _ _ _ _ _ hc ⟨c', h1, h2, _⟩; omega
  | succ f ih =>
    intro s c ht hpA hpB hT hL hc hex
    have hcb : c < b := by omega
    have a1 : nextBit h s.tmp d (A p) s.pA = .ok (A (p ++ [c]),
        b * (cnt b A d + (x.filter A).length) + if A p then c + 1 else 0) := by
      rw [ht, hpA]
      refine nextBit_spec hA hd (y := y.filter A) ?_ hcb
      intro hp
      rw [← nodes_filter hsA hA.closed hA.root, hs, List.filter_append, List.filter_cons, if_pos hp]
    have b1 : nextBit h tB d (B p) s.pB = .ok (B (p ++ [c]),
        b * (cnt b B d + (x.filter B).length) + if B p then c + 1 else 0) := by
      rw [hpB]
      refine nextBit_spec hB hd (y := y.filter B) ?_ hcb
      intro hp
      rw [← nodes_filter hsB hB.closed hB.root, hs, List.filter_append, List.filter_cons, if_pos hp]
    unfold children
    simp only [tag, a1, b1, Res.ok_bind]
    unfold emit
    cases hu : (A (p ++ [c]) || B (p ++ [c])) with
    | true =>
      split
      · rename_i hd1
        have : wr s.Ct s.idxT true = .ub := by unfold wr; rw [if_neg (by have := hT hd1; omega)]
        simp only [if_true, this]; rfl
      · rename_i hd1
        have : wr s.Cl s.idxL true = .ub := by unfold wr; rw [if_neg (by have := hL hd1; omega)]
        simp only [if_true, this]; rfl
    | false =>
      have hex' : ∃ c', c + 1 ≤ c' ∧ c' < b ∧ un A B (p ++ [c']) = true := by
        obtain ⟨c', h1, h2, h3⟩ := hex
        refine ⟨c', ?_, h2, h3⟩
        rcases Nat.lt_or_ge c c' with h4 | h4
        · exact h4
        · have : c' = c := by omega
          subst this
          unfold un at h3
          rw [h3] at hu; cases hu
      split
      · rename_i hd1
        rw [if_neg Bool.false_ne_true]
        simp only [Res.ok_bind]
        refine ih ht rfl rfl (fun _ => ?_) (fun hh => absurd hd1 hh) (by omega) hex'
        have := hT hd1
        show s.Ct.length ≤ s.idxT + 1
        omega
      · rename_i hd1
        rw [if_neg Bool.false_ne_true]
        simp only [Res.ok_bind]
        refine ih ht rfl rfl (fun hh => absurd hh hd1) (fun _ => ?_) (by omega) hex'
        have := hL hd1
        show s.Cl.length ≤ s.idxL + 1
        omega

theorem wT_dvd (d : Nat) (x : List (List Nat)) : b ∣ (wT b h A B d x).length := by
  unfold wT
  split
  · rw [List.length_append]
    exact Nat.dvd_add (by rw [upto_length]; exact Nat.dvd_mul_right _ _) (by rw [groups_length]; exact Nat.dvd_mul_right _ _)
  · rw [upto_length]; exact Nat.dvd_mul_right _ _

theorem wL_dvd (d : Nat) (x : List (List Nat)) : b ∣ (wL b h A B d x).length := by
  unfold wL
  split
  · simp
  · rw [groups_length]; exact Nat.dvd_mul_right _ _

theorem full_of {b w c : Nat} (hw : b ∣ w) (hc : b ∣ c) (h1 : w ≤ c) (h2 : ¬ w + b ≤ c) : w = c := by
  have h3 : b ∣ c - w := Nat.dvd_sub hc hw
  rcases Nat.eq_zero_or_pos (c - w) with h4 | h4
  · omega
  · have := Nat.le_of_dvd h4 h3; omega

/-- Every node above the last level has a child. -/
def Alive (b h : Nat) (U : List Nat → Bool) : Prop :=
  ∀ d, d < h → ∀ p ∈ nodes b U d, ∃ c, c < b ∧ U (p ++ [c]) = true

theorem Mid.step_over (hA : Enc b h A t) (hB : Enc b h B tB) (hdT : b ∣ cT) (hdL : b ∣ cL)
    (hal : Alive b h (un A B))
    (hno : ¬ ((tBits b (un A B) h).length ≤ cT ∧ (lBits b (un A B) h).length ≤ cL))
    {s : US} {g : Nat} (hm : Mid b h A B t cT cL s g) :
    g < cnt b (un A B) h ∧ ∃ q qs, s.Q = q :: qs ∧
      (children h tB q b { s with Q := qs, times := s.times + 1 } = .ub ∨
       ∃ s', children h tB q b { s with Q := qs, times := s.times + 1 } = .ok s' ∧
        Mid b h A B t cT cL s' (g + 1) ∧ s'.times = s.times + 1 ∧ Keep s s') := by
  obtain ⟨d, x, y, ha, hy, hg⟩ := hm
  cases y with
  | nil =>
    exfalso
    apply hno
    have hd := hy rfl
    have hx : nodes b (un A B) d = x := by simpa using ha.split
    have h1 : h - 1 = d := by omega
    have e1 : wT b h A B d x = tBits b (un A B) h := by
      unfold wT; rw [if_neg (by omega)]; rfl
    have e2 : wL b h A B d x = lBits b (un A B) h := by
      unfold wL; rw [if_neg (by omega), ← hx]; unfold lBits bits; rw [h1]
    rw [← e1, ← e2]
    exact ⟨ha.ct.2, ha.cl.2⟩
  | cons p y =>
    constructor
    · have hmono : ∀ j, cnt b (un A B) (d + 1) ≤ cnt b (un A B) (d + 1 + j) := by
        intro j
        induction j with
        | zero => exact le_refl _
        | succ j ih => exact le_trans ih (Nat.le_add_right _ _)
      have := hmono (h - (d + 1))
      rw [show d + 1 + (h - (d + 1)) = h by have := ha.lt; omega] at this
      rw [hg]
      refine lt_of_lt_of_le ?_ this
      rw [cnt, ha.split, List.length_append, List.length_cons]; omega
    · by_cases hroom : Room b h A B cT cL d x
      · obtain ⟨qs, s', h1, h2, h3, h4, h5⟩ := ha.step hA hB hroom
        refine ⟨_, qs, h1, Or.inr ⟨s', h2, ?_, h4, h5⟩⟩
        have := h3.norm hA hB (h - d) (by have := h3.lt; omega)
        rw [List.length_append, ← Nat.add_assoc] at this
        rw [hg]; exact this
      · refine ⟨tag A B d p, y.map (tag A B d) ++ wQ b h A B d x, by rw [ha.q]; rfl, Or.inl ?_⟩
        have hp : p ∈ nodes b (un A B) d := by rw [ha.split]; simp
        obtain ⟨c, hc1, hc2⟩ := hal d ha.lt p hp
        refine children_over hA hB ha.lt ha.split b (c := 0) ha.tmp ?_ ?_ ?_ ?_ (by omega) ⟨c, Nat.zero_le _, hc1, hc2⟩
        · show s.pA = _
          simp [ha.pA]
        · show s.pB = _
          simp [ha.pB]
        · intro hd1
          show s.Ct.length ≤ s.idxT
          rw [ha.ct.len, ha.idxT]
          refine le_of_eq (full_of (wT_dvd d x) hdT ha.ct.2 ?_).symm
          intro hh; exact hroom ⟨fun _ => hh, fun h2 => absurd hd1 h2⟩
        · intro hd1
          show s.Cl.length ≤ s.idxL
          rw [ha.cl.len, ha.idxL]
          refine le_of_eq (full_of (wL_dvd d x) hdL ha.cl.2 ?_).symm
          intro hh; exact hroom ⟨fun h2 => absurd h2 hd1, fun _ => hh⟩

theorem drain_over (hA : Enc b h A t) (hB : Enc b h B tB) (hdT : b ∣ cT) (hdL : b ∣ cL)
    (hal : Alive b h (un A B))
    (hno : ¬ ((tBits b (un A B) h).length ≤ cT ∧ (lBits b (un A B) h).length ≤ cL)) :
    ∀ (f : Nat) {s : US} {g : Nat}, Mid b h A B t cT cL s g →
    drain b h tB f s = .ub ∨ ∃ s', drain b h tB f s = .ok s' ∧ Mid b h A B t cT cL s' (g + f) ∧ Keep s s' ∧
      s'.times = s.times + f ∧ s'.Q ≠ [] ∧ g + f < cnt b (un A B) h := by
  intro f
  induction f with
  | zero =>
    intro s g hm
    obtain ⟨h1, q, qs, h2, _⟩ := hm.step_over hA hB hdT hdL hal hno
    exact Or.inr ⟨s, rfl, hm, Keep.refl s, rfl, by rw [h2]; simp, h1⟩
  | succ f ih =>
    intro s g hm
    obtain ⟨h1, q, qs, h2, h3⟩ := hm.step_over hA hB hdT hdL hal hno
    unfold drain
    rw [h2]
    simp only
    rcases h3 with h3 | ⟨s', h3, h4, h5, h6⟩
    · rw [h3]; exact Or.inl rfl
    · rw [h3]
      simp only [Res.ok_bind]
      rcases ih h4 with h7 | ⟨s'', e1, e2, e3, e4, e5, e6⟩
      · exact Or.inl h7
      · refine Or.inr ⟨s'', e1, ?_, h6.trans e3, by omega, e5, by omega⟩
        rw [show g + (f + 1) = g + 1 + f by omega]; exact e2

theorem geo_dvd (b j : Nat) : b ∣ geo b j := by
  induction j with
  | zero => simp [geo]
  | succ j ih => rw [geo]; exact Nat.dvd_add ih (by rw [pow_succ]; exact Nat.dvd_mul_left _ _)

section
variable {k n : Nat} {F : List Edge} {es : List (Option (List Edge))} {m : Nat}

theorem alive_below (hk : 0 < k) (hE : F ≠ []) : Alive (k * k) h (below k h F) := by
  intro d hd p hp
  obtain ⟨h1, h2⟩ := nodes_mem (below_nil hE) hp
  rw [below_iff] at h1
  obtain ⟨e, he, hpre⟩ := h1
  obtain ⟨r, hr⟩ := hpre
  have hl := congrArg List.length hr
  rw [List.length_append, path_length, h2] at hl
  cases r with
  | nil => simp at hl; omega
  | cons c r =>
    refine ⟨c, path_lt hk e c (by rw [← hr]; simp), ?_⟩
    rw [below_iff]
    exact ⟨e, he, r, by rw [← hr]; simp⟩

theorem encode_T_dvd (E : List Edge) : k * k ∣ (BT.encode k h n E).T.length := by
  show k * k ∣ (tBits (k * k) (below k h E) h).length
  rw [tBits_length]; exact Nat.dvd_mul_right _ _

theorem encode_L_dvd (E : List Edge) : k * k ∣ (BT.encode k h n E).L.length := by
  show k * k ∣ (lBits (k * k) (below k h E) h).length
  rw [lBits_length]; exact Nat.dvd_mul_right _ _

theorem min_dvd {a x y : Nat} (hx : a ∣ x) (hy : a ∣ y) : a ∣ min x y := by
  rcases min_choice x y with h | h <;> rw [h] <;> assumption

/-- One call of `unionOperation` on a union whose result is larger than the estimate. -/
theorem Pend.unionOp_over {H : Nat → Nat} (hi : Base k h n F es m) (hH : H n = h) (hk2 : k * k ∣ 2 ^ 32)
    (hno : ¬ ((tBits (k * k) (below k h (acc F es (m + 1))) h).length ≤ geo (k * k) h % 2 ^ 32 ∧
      (lBits (k * k) (below k h (acc F es (m + 1))) h).length ≤ geo (k * k) (h + 1) % 2 ^ 32)) : ∀ (f : Nat)
    {ks : List (Option BT)} {s : US} {D : Nat}, Pend k h n F es m ks s D → s.times < s.iter → m < s.ki + f →
    US.unionOp (k * k) H f ks s = .ub ∨
    ∃ ks' s', US.unionOp (k * k) H f ks s = .ok (ks', s') ∧ s'.iter = s.iter ∧
       Pend k h n F es m ks' s' (D + (s.iter - s.times)) ∧ s'.times = 0 ∧
          D + (s.iter - s.times) < work k h F es (m + 1) := by
  intro f
  induction f with
  | zero => intro ks s D hp _ hm; have := hp.i_le; omega
  | succ f ih =>
    intro ks s D hp ht hm
    obtain ⟨E, g, hE, hD, hst⟩ := hp.stage
    have hEne := hi.hE E (List.mem_of_getElem? hE)
    have hA := hi.enc (hi.acc_ne s.ki)
    have hB := hi.enc hEne.1
    have hun : un (below k h (acc F es s.ki)) (below k h E) = below k h (acc F es (s.ki + 1)) := by
      funext p; rw [acc_succ_some hE, below_append]; rfl
    have hrd : rd ks s.ki = .ok (some (BT.encode k h n E)) := by
      apply rd_of
      rw [hp.ks_eq, stored_get, rest_get (le_refl _), hE]; rfl
    obtain ⟨q, hq, s1, hs1, hmid, hkeep, htimes⟩ : ∃ q, s.front = .ok q ∧ ∃ s1,
        begin' (k * k) h (BT.encode k h n E) q s = s1 ∧
        Mid (k * k) h (below k h (acc F es s.ki)) (below k h E) (BT.encode k h n (acc F es s.ki))
        (capT (k * k) h (BT.encode k h n (acc F es s.ki)) (BT.encode k h n E))
        (capL (k * k) h (BT.encode k h n (acc F es s.ki)) (BT.encode k h n E)) s1 g ∧ Keep s s1 ∧
        s1.times = s.times := by
      rcases hst with ⟨h1, h2, h3⟩ | ⟨h1, h2, h3⟩
      · obtain ⟨q, q1, q2, q3, q4⟩ := h1.mid hi.hh hA hB h2
        rw [h3]
        exact ⟨q, q1, _, rfl, q2, q3, q4⟩
      · obtain ⟨q, q1, q2⟩ := h1.front h2 h3
        refine ⟨q, q1, s, ?_, h1, Keep.refl s, rfl⟩
        unfold begin'; rw [if_neg q2]
    have hmaxh : max s.tmp.h (BT.encode k h n E).h = h := by
      have : s.tmp = BT.encode k h n (acc F es s.ki) := by
        rcases hst with ⟨_, h2, _⟩ | ⟨⟨_, _, _, h1, _⟩, _, _⟩
        · exact h2
        · exact h1.tmp
      rw [this]; simp [BT.encode]
    have hwk := work_succ_some (k := k) (h := h) (F := F) hE
    have hpend : ∀ (s2 : US) (g2 : Nat), Keep s s2 →
        Mid (k * k) h (below k h (acc F es s.ki)) (below k h E) (BT.encode k h n (acc F es s.ki))
        (capT (k * k) h (BT.encode k h n (acc F es s.ki)) (BT.encode k h n E))
        (capL (k * k) h (BT.encode k h n (acc F es s.ki)) (BT.encode k h n E)) s2 g2 → s2.Q ≠ [] → 0 < g2 →
        Pend k h n F es m ks { s2 with times := 0, finish := false } (work k h F es s.ki + g2) := by
      intro s2 g2 hk2 d2 e1 hg2
      refine ⟨?_, ?_, rfl, ?_, E, g2, ?_, ?_, Or.inr ⟨?_, hg2, e1⟩⟩
      · show s2.ki ≤ m; rw [hk2.1]; exact hp.i_le
      · show s2.maxI = m; rw [hk2.2.2.2, hp.mI]
      · show ks = stored k h n (rest es s2.ki); rw [hk2.1]; exact hp.ks_eq
      · show es[s2.ki]? = _; rw [hk2.1]; exact hE
      · show _ = work k h F es s2.ki + g2; rw [hk2.1]
      · show Mid (k * k) h (below k h (acc F es s2.ki)) _ _ _ _ _ _
        simp only [hk2.1]
        obtain ⟨d, x, y, ha, hy, hg⟩ := d2
        exact ⟨d, x, y, ⟨ha.tmp, ha.split, ha.lt, ha.q, ha.pA, ha.pB, ha.ct, ha.cl, ha.idxT, ha.idxL, ha.ne⟩, hy, hg⟩
    have hlast : work k h F es (s.ki + 1) ≤ work k h F es (m + 1) :=
      work_mono (show s.ki + 1 ≤ m + 1 by have := hp.i_le; omega)
    unfold US.unionOp
    rw [hp.fin, if_neg Bool.false_ne_true]
    simp only [hrd, use, Res.ok_bind, hmaxh, hq, hs1]
    by_cases hfit : (tBits (k * k) (un (below k h (acc F es s.ki)) (below k h E)) h).length ≤
        capT (k * k) h (BT.encode k h n (acc F es s.ki)) (BT.encode k h n E) ∧
      (lBits (k * k) (un (below k h (acc F es s.ki)) (below k h E)) h).length ≤
        capL (k * k) h (BT.encode k h n (acc F es s.ki)) (BT.encode k h n E)
    · obtain ⟨hcT, hcL⟩ := hfit
      obtain ⟨s2, g2, d1, d2, d3, d4, d5⟩ := drain_spec hA hB hcT hcL (s.iter - s.times) hmid
      have hk2 := hkeep.trans d3
      simp only [d1, Res.ok_bind]
      have hcT' := hcT
      have hcL' := hcL
      rw [hun] at d5 hcT' hcL'
      rcases d5 with ⟨e1, e2, e3⟩ | ⟨e1, e2, e3⟩
      · rw [if_pos e1]
        obtain ⟨x, hx1, hx2⟩ : ∃ x, At (k * k) h (below k h (acc F es s.ki)) (below k h E)
            (BT.encode k h n (acc F es s.ki))
            (capT (k * k) h (BT.encode k h n (acc F es s.ki)) (BT.encode k h n E))
            (capL (k * k) h (BT.encode k h n (acc F es s.ki)) (BT.encode k h n E)) s2 (h - 1) x [] ∧
            nodes (k * k) (un (below k h (acc F es s.ki)) (below k h E)) (h - 1) = x := by
          rcases d2.step hA hB hcT hcL with ⟨_, _, x, a1, a2⟩ | ⟨_, q', qs, _, a1, _⟩
          · exact ⟨x, a1, a2⟩
          · rw [e1] at a1; cases a1
        rw [← hk2.1] at hx1 hx2 hE
        obtain ⟨ks', s', r, n1, n2, n3⟩ := next_spec hi hH (by rw [hk2.1]; exact hp.i_le)
          (by rw [hk2.2.2.2, hp.mI]) hE (by rw [hk2.2.2.1, hp.fin]) hx1 hx2
        rw [hk2.1, ← hp.ks_eq] at n1
        simp only [n1, Res.ok_bind]
        rw [hk2.1] at n3
        rcases n3 with ⟨m1, m2, m3, m4, m5⟩ | ⟨m1, m2, m3, ⟨m4, m5, m6⟩ | ⟨m4, m5, m6⟩⟩
        · exfalso
          apply hno
          rw [m5]
          have q1 := le_trans hcT' (min_le_left _ _)
          have q2 := le_trans hcL' (min_le_left _ _)
          rw [bitsLoop_mod] at q1 q2
          exact ⟨q1, q2⟩
        · rw [m4, if_neg Bool.false_ne_true]
          rw [hk2.2.1] at m5
          have : work k h F es (s.ki + 1) = D + (s.iter - s.times) := by rw [hwk]; omega
          rw [this] at m1 m3
          exact Or.inr ⟨_, _, rfl, by rw [n2, hk2.2.1], m1, m6, m3⟩
        · rw [m4, if_pos rfl]
          rw [hk2.2.1] at m5 n2
          have : work k h F es (s.ki + 1) + (s'.iter - s'.times) = D + (s.iter - s.times) := by
            rw [hwk, n2, m6]; omega
          rcases ih m1 (by omega) (by omega) with i1 | ⟨ks'', s'', i1, i2, i3⟩
          · exact Or.inl i1
          · rw [this] at i3
            exact Or.inr ⟨ks'', s'', i1, by rw [i2, n2], i3⟩
      · rw [if_neg e1]
        have : D + (s.iter - s.times) = work k h F es s.ki + g2 := by omega
        rw [this]
        refine Or.inr ⟨_, _, rfl, hk2.2.1, hpend s2 g2 hk2 d2 e1 (by omega), rfl, by omega⟩
    · have hb1 : k * k ∣ capT (k * k) h (BT.encode k h n (acc F es s.ki)) (BT.encode k h n E) := by
        unfold capT
        rw [bitsLoop_mod]
        exact min_dvd ((Nat.dvd_mod_iff hk2).2 (geo_dvd _ _)) (Nat.dvd_add (encode_T_dvd _) (encode_T_dvd _))
      have hb2 : k * k ∣ capL (k * k) h (BT.encode k h n (acc F es s.ki)) (BT.encode k h n E) := by
        unfold capL
        rw [bitsLoop_mod]
        exact min_dvd ((Nat.dvd_mod_iff hk2).2 (geo_dvd _ _)) (Nat.dvd_add (encode_L_dvd _) (encode_L_dvd _))
      have hal : Alive (k * k) h (un (below k h (acc F es s.ki)) (below k h E)) := by
        rw [hun]; exact alive_below (by have := hi.hk; omega) (hi.acc_ne _)
      rcases drain_over hA hB hb1 hb2 hal hfit (s.iter - s.times) hmid with h1 | ⟨s2, d1, d2, d3, d4, d5, d6⟩
      · rw [h1]; exact Or.inl rfl
      · have hk2 := hkeep.trans d3
        simp only [d1, Res.ok_bind]
        rw [if_neg d5]
        have : D + (s.iter - s.times) = work k h F es s.ki + (g + (s.iter - s.times)) := by omega
        rw [hun] at d6
        rw [this]
        refine Or.inr ⟨_, _, rfl, hk2.2.1, hpend s2 _ hk2 d2 d5 (by omega), rfl, by omega⟩

/-- Calls of `unionOperation` on a union whose result is larger than the estimate. -/
theorem calls_over {H : Nat → Nat} (hi : Base k h n F es m) (hH : H n = h) (hk2 : k * k ∣ 2 ^ 32)
    (hno : ¬ ((tBits (k * k) (below k h (acc F es (m + 1))) h).length ≤ geo (k * k) h % 2 ^ 32 ∧
      (lBits (k * k) (below k h (acc F es (m + 1))) h).length ≤ geo (k * k) (h + 1) % 2 ^ 32)) :
    ∀ (cs : List Nat) {ks : List (Option BT)} {s : US} {D : Nat}, (∀ c ∈ cs, 0 < c) → ks.length = es.length →
    Pend k h n F es m ks s D → s.times = 0 → D < work k h F es (m + 1) →
    US.calls (k * k) H cs (ks, s) = .ub ∨
    (D + cs.sum < work k h F es (m + 1) ∧ ∃ ks' s', US.calls (k * k) H cs (ks, s) = .ok (ks', s') ∧ s'.finish = false) := by
  intro cs
  induction cs with
  | nil => intro ks s D _ _ hp _ hD; exact Or.inr ⟨by simpa using hD, ks, s, rfl, hp.fin⟩
  | cons c cs ih =>
    intro ks s D hc hlen h1 h2 hD
    have hc0 := hc c (by simp)
    unfold US.calls
    have hp : US.Pend k h n F es m ks { s with iter := c } D := by
      obtain ⟨a1, a2, a3, a4, E, g, a5, a6, a7⟩ := h1
      refine ⟨a1, a2, a3, a4, E, g, a5, a6, ?_⟩
      rcases a7 with ⟨b1, b2, b3⟩ | ⟨⟨d, x, y, ha, hy, hg⟩, b2, b3⟩
      · exact Or.inl ⟨⟨b1.q, b1.pA, b1.pB, b1.idxL, b1.idxT, b1.ne⟩, b2, b3⟩
      · exact Or.inr ⟨⟨d, x, y, ⟨ha.tmp, ha.split, ha.lt, ha.q, ha.pA, ha.pB, ha.ct, ha.cl, ha.idxT, ha.idxL,
          ha.ne⟩, hy, hg⟩, b2, b3⟩
    rcases hp.unionOp_over (H := H) hi hH hk2 hno (ks.length + 1) (by simpa [h2] using hc0)
      (by have := hi.hm; omega) with e1 | ⟨ks1, s1, e1, e2, e3, e4, e5⟩
    · rw [e1]; exact Or.inl rfl
    · simp only [e1, Res.ok_bind]
      simp only [h2, Nat.sub_zero] at e3 e5
      have hlen1 : ks1.length = es.length := by
        rw [e3.ks_eq, US.stored, List.length_map, US.rest_length (by have := e3.i_le; have := hi.hm; omega)]
      rcases ih (fun c' hc' => hc c' (List.mem_cons_of_mem _ hc')) hlen1 e3 e4 e5 with f1 | ⟨f1, f2⟩
      · exact Or.inl f1
      · refine Or.inr ⟨?_, f2⟩
        rw [List.sum_cons]; omega

end
end US

open Bits

/-- C40, the other direction: for the arities that are powers of two, if a level takes part in the union (otherwise there
is nothing to do) and a bit vector of the result is larger than the estimate, the union never finishes: as soon as the
budgets add up to its work, it has written out of bounds. -/
theorem C40_exact {k h n : Nat} (hk : 2 ≤ k) (hk2 : k * k ∣ 2 ^ 32) (hh : 1 ≤ h) (hn : n ≤ k ^ h) {H : Nat → Nat}
    (hH : H n = h) {F : List Edge} (hF : F ≠ []) (hFr : ∀ e ∈ F, InRange n e) {es : List (Option (List Edge))}
    (hE : ∀ E, some E ∈ es → E ≠ [] ∧ ∀ e ∈ E, InRange n e) {m : Nat} (hm : m < es.length)
    (hocc : ∃ j E, j ≤ m ∧ es[j]? = some (some E))
    (hno : sizeEst k h < (BT.encode k h n (unionEdges F es m)).T.length ∨
      sizeEst k (h + 1) < (BT.encode k h n (unionEdges F es m)).L.length) :
    ∃ ks0 s0, US.create (fun E n => BT.encode k h n E) F n (es.map (Option.map (BT.encode k h n))) m =
        .ok (ks0, s0) ∧
      ∀ cs : List Nat, (∀ c ∈ cs, 0 < c) →
        (unionWork k h F es m ≤ cs.sum → US.calls (k * k) H cs (ks0, s0) = .ub) ∧
        ∀ ks' s', US.calls (k * k) H cs (ks0, s0) = .ok (ks', s') → s'.finish = false := by
  have hi : US.Base k h n F es m := ⟨hk, hh, hn, hF, hFr, hE, hm⟩
  have hno' : ¬ ((tBits (k * k) (below k h (US.acc F es (m + 1))) h).length ≤ US.geo (k * k) h % 2 ^ 32 ∧
      (lBits (k * k) (below k h (US.acc F es (m + 1))) h).length ≤ US.geo (k * k) (h + 1) % 2 ^ 32) := by
    rw [US.acc_eq, ← sizeEst_eq, ← sizeEst_eq]
    rintro ⟨h1, h2⟩
    rcases hno with h3 | h3
    · exact absurd h1 (not_le.2 h3)
    · exact absurd h2 (not_le.2 h3)
  obtain ⟨ks0, s0, e1, e2, e3, e4⟩ := US.create_spec hi
  refine ⟨ks0, s0, e1, ?_⟩
  intro cs hcs
  rcases e4 with ⟨_, _, h0⟩ | ⟨h1, h2, h3⟩
  · exfalso
    obtain ⟨j, E, hj, hE'⟩ := hocc
    have h4 : US.work k h F es (m + 1) = 0 := h0
    have h5 := US.work_mono (k := k) (h := h) (F := F) (es := es) (show j + 1 ≤ m + 1 by omega)
    rw [US.work_succ_some hE'] at h5
    have := US.cnt_pos (b := k * k) (U := below k h (US.acc F es (j + 1))) hh
    omega
  · rcases US.calls_over hi hH hk2 hno' cs hcs e3 h1 h2 h3 with h4 | ⟨h4, ks', s', h5, h6⟩
    · refine ⟨fun _ => h4, ?_⟩
      intro ks' s' h7; rw [h4] at h7; cases h7
    · refine ⟨fun h7 => ?_, ?_⟩
      · exfalso
        have : unionWork k h F es m = US.work k h F es (m + 1) := rfl
        omega
      · intro ks1 s1 h7
        rw [h5] at h7; cases h7; exact h6

/-! ## Instance: `k = 16` -/

theorem path_take (k : Nat) : ∀ (h : Nat) (e : Edge), (path k (h + 1) e).take h = path k h (e.1 / k, e.2 / k) := by
  intro h
  induction h with
  | zero => intro e; rfl
  | succ h ih =>
    intro e
    show _ :: (path k (h + 1) e).take h = _ :: path k h _
    rw [ih]
    simp only [Nat.div_div_eq_div_mul, pow_succ']

/-- Edges in different `k × k` blocks need different groups of `L`. -/
theorem blocks_le {k h n : Nat} (hk : 0 < k) (hh : 1 ≤ h) (hn : n ≤ k ^ (h + 1)) {E : List Edge}
    (hE : ∀ e ∈ E, InRange n e) (hd : (E.map (fun e => (e.1 / k, e.2 / k))).Nodup) :
    k * k * E.length ≤ (BT.encode k (h + 1) n E).L.length := by
  show _ ≤ (lBits (k * k) (below k (h + 1) E) (h + 1)).length
  rw [US.lBits_length]
  refine Nat.mul_le_mul_left _ ?_
  have hsub : (E.map (fun e => path k h (e.1 / k, e.2 / k))) ⊆ nodes (k * k) (below k (h + 1) E) (h + 1 - 1) := by
    intro p hp
    obtain ⟨e, he, rfl⟩ := List.mem_map.1 hp
    rw [mem_nodes_iff (below_closed _ _ _) (by omega)]
    refine ⟨by simp, ?_, path_lt hk _⟩
    rw [below_iff]
    exact ⟨e, he, by rw [← path_take]; exact List.take_prefix _ _⟩
  have hnd : (E.map (fun e => path k h (e.1 / k, e.2 / k))).Nodup := by
    have : (E.map (fun e => path k h (e.1 / k, e.2 / k))) =
        (E.map (fun e => (e.1 / k, e.2 / k))).map (path k h) := by simp
    rw [this]
    refine List.Nodup.map_on ?_ hd
    intro a ha b hb hab
    have hr : ∀ a ∈ E.map (fun e => (e.1 / k, e.2 / k)), InRange (k ^ h) a := by
      intro a ha
      obtain ⟨e, he, rfl⟩ := List.mem_map.1 ha
      obtain ⟨h1, h2⟩ := hE e he
      rw [pow_succ] at hn
      exact ⟨Nat.div_lt_of_lt_mul (by rw [Nat.mul_comm]; omega), Nat.div_lt_of_lt_mul (by rw [Nat.mul_comm]; omega)⟩
    exact path_inj hk (le_refl _) (hr a ha) (hr b hb) hab
  have := (List.subperm_of_subset hnd hsub).length_le
  simpa using this

/-- One edge in each of the first `N` blocks of 65536 vertices. -/
def wBlocks (N : Nat) : List Edge := (List.range N).map (fun i => (16 * (i / 4096), 16 * (i % 4096)))

theorem wBlocks_range {N : Nat} (hN : N ≤ 4096 * 4096) : ∀ e ∈ wBlocks N, InRange 65536 e := by
  intro e he
  obtain ⟨i, hi, rfl⟩ := List.mem_map.1 he
  rw [List.mem_range] at hi
  constructor
  · show 16 * (i / 4096) < _; omega
  · show 16 * (i % 4096) < _; omega

theorem wBlocks_nodup (N : Nat) : ((wBlocks N).map (fun e => (e.1 / 16, e.2 / 16))).Nodup := by
  unfold wBlocks
  rw [List.map_map]
  refine List.Nodup.map_on ?_ List.nodup_range
  intro a _ b _ h
  simp only [Function.comp, Prod.mk.injEq] at h
  omega

theorem over_of {H : Nat → Nat} (hH : H 65536 = 4) {W : List Edge} {N : Nat} (hlen : W.length = N)
    (hbig : sizeEst 16 5 < 16 * 16 * N) (hr : ∀ e ∈ W, InRange 65536 e)
    (hd : (W.map (fun e => (e.1 / 16, e.2 / 16))).Nodup) :
    ∃ ks0 s0, US.create (fun E n => BT.encode 16 4 n E) [(0, 0)] 65536 [some (BT.encode 16 4 65536 W)] 0 =
        .ok (ks0, s0) ∧
      ∃ w, ∀ cs : List Nat, (∀ c ∈ cs, 0 < c) → w ≤ cs.sum → US.calls 256 H cs (ks0, s0) = .ub := by
  have hne : W ≠ [] := by
    intro h0; rw [h0] at hlen
    rw [← hlen] at hbig; simp at hbig
  have hL : 16 * 16 * W.length ≤
      (BT.encode 16 (3 + 1) 65536 (unionEdges [(0, 0)] [some W] 0)).L.length := by
    refine le_trans (blocks_le (k := 16) (h := 3) (n := 65536) (by norm_num) (by norm_num) (by norm_num) hr hd) ?_
    show (lBits _ _ _).length ≤ (lBits _ _ _).length
    rw [US.lBits_length, US.lBits_length]
    refine Nat.mul_le_mul_left _ (US.mono_len (US.below_mono ?_) (below_closed _ _ _) (below_nil ?_) _)
    · intro e he
      unfold unionEdges
      simp [he]
    · exact hne
  rw [hlen] at hL
  obtain ⟨ks0, s0, h1, h2⟩ := C40_exact (k := 16) (h := 4) (n := 65536) (H := H) (F := [(0, 0)])
    (es := [some W]) (m := 0) (by norm_num) (by norm_num) (by norm_num) (by norm_num) hH (by simp)
    (by decide) (by
      intro E hE
      simp only [List.mem_singleton, Option.some.injEq] at hE
      subst hE
      exact ⟨hne, hr⟩) (by simp) ⟨0, _, le_refl _, rfl⟩
    (Or.inr (lt_of_lt_of_le hbig hL))
  exact ⟨ks0, s0, h1, _, fun cs hcs hw => (h2 cs hcs).1 hw⟩

/-- C40 is false without the condition on the size: for `k = 16`, merging one edge into a tree of 65794 edges (in different
blocks of 65536 vertices) writes out of bounds. -/
theorem C40_over {H : Nat → Nat} (hH : H 65536 = 4) :
    ∃ ks0 s0, US.create (fun E n => BT.encode 16 4 n E) [(0, 0)] 65536
        [some (BT.encode 16 4 65536 (wBlocks 65794))] 0 = .ok (ks0, s0) ∧
      ∃ w, ∀ cs : List Nat, (∀ c ∈ cs, 0 < c) → w ≤ cs.sum → US.calls 256 H cs (ks0, s0) = .ub :=
  over_of hH (N := 65794) (by rw [wBlocks, List.length_map, List.length_range])
    (by rw [sizeEst_eq]; norm_num [US.geo]) (wBlocks_range (by norm_num)) (wBlocks_nodup _)

/-- C83: every merge of valid trees comes to an end without undefined behaviour once its budgets suffice, however large
the trees are. -/
def C83_Full : Prop :=
  ∀ (k h n : Nat) (H : Nat → Nat) (F : List Edge) (es : List (Option (List Edge))) (m : Nat),
    2 ≤ k → k ≤ 16 → 1 ≤ h → n ≤ k ^ h → H n = h → F ≠ [] → (∀ e ∈ F, InRange n e) →
    (∀ E, some E ∈ es → E ≠ [] ∧ ∀ e ∈ E, InRange n e) → m < es.length →
    ∃ ks0 s0, US.create (fun E n => BT.encode k h n E) F n (es.map (Option.map (BT.encode k h n))) m = .ok (ks0, s0) ∧
      ∀ cs : List Nat, (∀ c ∈ cs, 0 < c) → unionWork k h F es m ≤ cs.sum →
        ∃ ks' s', US.calls (k * k) H cs (ks0, s0) = .ok (ks', s') ∧ s'.finish = true

theorem C83_refuted : ¬ C83_Full := by
  intro hf
  have hr := wBlocks_range (N := 65794) (by norm_num)
  have hlen : (wBlocks 65794).length = 65794 := by rw [wBlocks, List.length_map, List.length_range]
  obtain ⟨a0, b0, h1, w, h2⟩ := C40_over (H := fun _ => 4) rfl
  generalize wBlocks 65794 = W at *
  have hne : W ≠ [] := by
    intro h0; rw [h0] at hlen; simp at hlen
  obtain ⟨ks0, s0, h3, h4⟩ := hf 16 4 65536 (fun _ => 4) [(0, 0)] [some W] 0 (by norm_num)
    (by norm_num) (by norm_num) (by norm_num) rfl (by simp) (by decide) (by
      intro E hE
      simp only [List.mem_singleton, Option.some.injEq] at hE
      subst hE
      exact ⟨hne, hr⟩) (by simp)
  have h5 : (Res.ok (ks0, s0) : Res _) = .ok (a0, b0) := h3.symm.trans h1
  cases h5
  have hc : ∀ c ∈ [w + unionWork 16 4 [(0, 0)] [some W] 0 + 1], 0 < c := by simp
  have h6 := h2 _ hc (by simp; omega)
  obtain ⟨ks', s', h7, _⟩ := h4 _ hc (by simp; omega)
  have h8 : (Res.ub : Res _) = .ok (ks', s') := h6.symm.trans h7
  cases h8

/-- C83, the part that holds: it is exactly the condition that the result is not larger than the 32-bit estimate that
decides, for every arity that is a power of two.  Missing: the merges whose result is larger. -/
theorem C83_iff_partial {k h n : Nat} (hk : 2 ≤ k) (hk2 : k * k ∣ 2 ^ 32) (hh : 1 ≤ h) (hn : n ≤ k ^ h) {H : Nat → Nat}
    (hH : H n = h) {F : List Edge} (hF : F ≠ []) (hFr : ∀ e ∈ F, InRange n e) {es : List (Option (List Edge))}
    (hE : ∀ E, some E ∈ es → E ≠ [] ∧ ∀ e ∈ E, InRange n e) {m : Nat} (hm : m < es.length)
    (hocc : ∃ j E, j ≤ m ∧ es[j]? = some (some E)) :
    ∃ ks0 s0, US.create (fun E n => BT.encode k h n E) F n (es.map (Option.map (BT.encode k h n))) m =
        .ok (ks0, s0) ∧
      ∀ cs : List Nat, (∀ c ∈ cs, 0 < c) → unionWork k h F es m ≤ cs.sum →
        ((∃ ks' s', US.calls (k * k) H cs (ks0, s0) = .ok (ks', s') ∧ s'.finish = true ∧ UnionDone k h n F es m ks') ↔
          (BT.encode k h n (unionEdges F es m)).T.length ≤ sizeEst k h ∧
          (BT.encode k h n (unionEdges F es m)).L.length ≤ sizeEst k (h + 1)) := by
  by_cases hfit : (BT.encode k h n (unionEdges F es m)).T.length ≤ sizeEst k h ∧
          (BT.encode k h n (unionEdges F es m)).L.length ≤ sizeEst k (h + 1)
  · obtain ⟨ks0, s0, h1, _, h2⟩ := C40 hk hh hn hH hF hFr hE hm hfit.1 hfit.2
    refine ⟨ks0, s0, h1, fun cs hcs hw => ⟨fun _ => hfit, fun _ => ?_⟩⟩
    obtain ⟨ks', s', a, b, c⟩ := h2 cs hcs
    exact ⟨ks', s', a, b.2 hw, c (b.2 hw)⟩
  · have hno : sizeEst k h < (BT.encode k h n (unionEdges F es m)).T.length ∨
      sizeEst k (h + 1) < (BT.encode k h n (unionEdges F es m)).L.length := by
      by_contra h0
      push Not at h0
      exact hfit h0
    obtain ⟨ks0, s0, h1, h2⟩ := C40_exact hk hk2 hh hn hH hF hFr hE hm hocc hno
    refine ⟨ks0, s0, h1, fun cs hcs hw => ⟨?_, fun h3 => absurd h3 hfit⟩⟩
    rintro ⟨ks', s', a, _⟩
    have h4 : (Res.ub : Res _) = .ok (ks', s') := ((h2 cs hcs).1 hw).symm.trans a
    cases h4

/-- Non-vacuity: the merge of `wUnion` (`k = 2`, 4 vertices) fits. -/
example : ∃ ks0 s0, US.create (fun E n => BT.encode 2 2 n E) [(0, 1)] 4
      (wUnion.map (Option.map (BT.encode 2 2 4))) 2 = .ok (ks0, s0) ∧
    ∃ ks' s', US.calls 4 (fun _ => 2) [2, 5] (ks0, s0) = .ok (ks', s') ∧ s'.finish = true ∧
      UnionDone 2 2 4 [(0, 1)] wUnion 2 ks' := by
  obtain ⟨ks0, s0, h1, h2⟩ := C83_iff_partial (k := 2) (h := 2) (n := 4) (H := fun _ => 2) (F := [(0, 1)])
    (es := wUnion) (m := 2) (by norm_num) (by norm_num) (by norm_num) (by norm_num) rfl (by simp) (by decide)
    (by intro E hE; simp only [wUnion, List.mem_cons] at hE
        rcases hE with h | h | h | h
        · cases h; exact ⟨by simp, by decide⟩
        · cases h
        · cases h; exact ⟨by simp, by decide⟩
        · cases h) (by decide) ⟨0, _, by norm_num, rfl⟩
  exact ⟨ks0, s0, h1, (h2 [2, 5] (by decide) (by decide)).2 ⟨by decide, by decide⟩⟩

end DK2
