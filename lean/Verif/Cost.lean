import Verif.PropsGraph2
/-!
# C72: amortised cost of insertions into a `DKtree`

`add_edge` with a counter: the number of edges written into trees (by the construction from the buffer and
by every `unionOp`) and whether the buffer was flushed.
-/

namespace DK2
namespace DK
variable {K : K2Impl}

/-- The merge loop of `add_edge` (DKtree.hpp:135-140): the sum of the sizes of the results of its
`unionOp` calls. -/
def mergeCost (K : K2Impl) : Nat → K.T → List (Option K.T) → Nat
  | 0, _, _ => 0
  | _ + 1, _, [] => 0
  | n + 1, t, none :: ks => mergeCost K n t ks
  | n + 1, t, some u :: ks => (K.edges (K.union t u)).length + mergeCost K n (K.union t u) ks

/-- `add_edge(x,y)` (DKtree.hpp:101-144), as `addEdge`, also giving the number of edges written into trees
(construction from the buffer, DKtree.hpp:132, and the unions of the merge loop) and the number of flushes
(0 or 1). -/
def addEdgeC (S : Sizing) (g : DK K) (e : Edge) : Res (DK K × Nat × Nat) := do
  let r ← g.containsForced e
  let g := r.2
  if r.1 then .ok (g, 0, 0)
  else
    let maxSize := S.maxsz (max g.nv g.nTotal) 0
    if g.c0.size < maxSize then do
      let c ← g.c0.insert S e g.nTotal
      .ok ({ g with c0 := c, nTotal := g.nTotal + 1 }, 0, 0)
    else
      match selectLevel K S (max g.nv g.nTotal) g.ks 0 maxSize with
      | none => .throws
      | some i => do
        let conv ← g.c0.converted
        let tmp := K.build (conv ++ [e]) g.nv
        let c ← g.c0.clean
        let m := mergeUpTo K (i + 1) tmp g.ks
        .ok ({ g with
          maxR := max i g.maxR
          c0 := c
          ks := m.2.set i (some m.1)
          nTotal := g.nTotal + 1 }, (K.edges tmp).length + mergeCost K (i + 1) tmp g.ks, 1)

/-- The insertions `es` in order, with the total number of edges written and of flushes. -/
def insertsC (S : Sizing) : DK K → List Edge → Res (DK K × Nat × Nat)
  | g, [] => .ok (g, 0, 0)
  | g, e :: es => do
    let r ← g.addEdgeC S e
    let q ← insertsC S r.1 es
    .ok (q.1, r.2.1 + q.2.1, r.2.2 + q.2.2)

theorem res_assoc {α β γ : Type} (x : Res α) (f : α → Res β) (h : β → Res γ) :
    (x >>= f >>= h) = (x >>= fun a => f a >>= h) := by
  cases x <;> rfl

/-- Dropping the counters gives `addEdge`. -/
theorem addEdgeC_fst (S : Sizing) (g : DK K) (e : Edge) :
    (g.addEdgeC S e >>= fun r => .ok r.1) = g.addEdge S e := by
  unfold addEdgeC addEdge
  rw [res_assoc]
  congr 1
  funext r
  by_cases h1 : r.1 = true
  · rw [if_pos h1, if_pos h1]; rfl
  · rw [if_neg h1, if_neg h1]
    simp only
    by_cases h2 : r.2.c0.size < S.maxsz (max r.2.nv r.2.nTotal) 0
    · rw [if_pos h2, if_pos h2, res_assoc]; rfl
    · rw [if_neg h2, if_neg h2]
      cases selectLevel K S (max r.2.nv r.2.nTotal) r.2.ks 0 (S.maxsz (max r.2.nv r.2.nTotal) 0) with
      | none => rfl
      | some i =>
        simp only
        rw [res_assoc]
        congr 1
        funext c
        rw [res_assoc]
        rfl

/-- Number of edges stored in the levels `ks`. -/
def lens (K : K2Impl) (ks : List (Option K.T)) : Nat := (flat K ks).length

/-- The potential of the levels: an edge counts once for each level above its own. -/
def phi (K : K2Impl) : List (Option K.T) → Nat
  | [] => 0
  | o :: ks => ks.length * (oedges K o).length + phi K ks

theorem lens_append (a b : List (Option K.T)) : lens K (a ++ b) = lens K a + lens K b := by
  unfold lens; rw [flat_append, List.length_append]

theorem lens_cons (o : Option K.T) (ks : List (Option K.T)) :
    lens K (o :: ks) = (oedges K o).length + lens K ks := by
  unfold lens flat; simp

theorem phi_append (a b : List (Option K.T)) :
    phi K (a ++ b) = phi K a + b.length * lens K a + phi K b := by
  induction a with
  | nil => simp [phi, lens, flat]
  | cons o a ih =>
    rw [List.cons_append, phi, phi, ih, List.length_append, lens_cons]
    ring

theorem phi_replicate (i : Nat) : phi K (List.replicate i none) = 0 := by
  induction i with
  | zero => rfl
  | succ i ih => rw [List.replicate_succ, phi, ih]; simp [oedges]

theorem lens_replicate (i : Nat) : lens K (List.replicate i none) = 0 := by
  induction i with
  | zero => simp [lens, flat]
  | succ i ih => rw [List.replicate_succ, lens_cons, ih]; simp [oedges]

/-- The sizes along the merge loop never exceed the size of its result. -/
theorem mergeCost_le (hK : K.Lawful) {v : Nat} (n : Nat) : ∀ (t : K.T) (ks : List (Option K.T)),
    K.valid v t → AllValid K v ks →
    (K.edges t).length ≤ (K.edges (mergeUpTo K n t ks).1).length ∧
    mergeCost K n t ks ≤ n * (K.edges (mergeUpTo K n t ks).1).length := by
  induction n with
  | zero => intro t ks _ _; simp [mergeUpTo, mergeCost]
  | succ n ih =>
    intro t ks h1 h2
    cases ks with
    | nil => simp [mergeUpTo, mergeCost]
    | cons o ks =>
      cases o with
      | none =>
        obtain ⟨a, b⟩ := ih t ks h1 h2.tail
        simp only [mergeUpTo, mergeCost]
        refine ⟨a, b.trans (Nat.mul_le_mul_right _ (by omega))⟩
      | some u =>
        have hv := hK.union_valid v t u h1 h2.head
        obtain ⟨a, b⟩ := ih (K.union t u) ks hv h2.tail
        simp only [mergeUpTo, mergeCost]
        have hle : (K.edges t).length ≤ (K.edges (K.union t u)).length :=
          (List.subperm_of_subset (hK.edges_nodup _ _ h1) (fun e he =>
            (hK.union_edges v t u h1 h2.head e).2 (Or.inl he))).length_le
        refine ⟨by omega, ?_⟩
        rw [Nat.succ_mul]; omega

theorem selectLevel_below (S : Sizing) (m : Nat) : ∀ (ks : List (Option K.T)) (i acc r : Nat),
    selectLevel K S m ks i acc = some r → ∀ j, i ≤ j → j < r →
      S.maxsz m (j + 1) ≤ acc + totals K (ks.take (j - i + 1)) + 1 := by
  intro ks
  induction ks with
  | nil => intro i acc r h; simp [selectLevel] at h
  | cons o ks ih =>
    intro i acc r h j hij hjr
    have htot : ∀ j, totals K ((o :: ks).take (j + 1)) = o.elim 0 K.total + totals K (ks.take j) := by
      intro j; simp [totals]
    rw [selectLevel_cons] at h
    split at h
    · cases h; omega
    · rename_i hn
      by_cases hj : j = i
      · subst hj; rw [htot]; simp [totals]; omega
      · have := ih (i + 1) _ r h j (by omega) hjr
        rw [htot]
        have e1 : j - i = j - (i + 1) + 1 := by omega
        rw [e1]; omega

/-- What one insertion costs: either nothing is written and an edge may enter the buffer, or the buffer is flushed,
at least `rise` edges (the buffer, the new edge and the levels below the target) rise by at least one level,
and at most nine times the threshold of the level above is written. -/
theorem addEdgeC_spec (hK : K.Lawful) (hF : K.ForcedPure) {S : Sizing} {g : DK K} (hi : g.Inv) (hf : g.Fresh)
    {e : Edge} (he : InRange g.nv e) {g' : DK K} {w c : Nat}
    (hr : g.addEdgeC S e = .ok (g', w, c)) :
    (w = 0 ∧ c = 0 ∧ RS * g'.c0.size + phi K g'.ks ≤ RS * g.c0.size + phi K g.ks + RS ∧
      (g' = g ∨ (g'.c0.size = g.c0.size + 1 ∧ g'.nTotal = g.nTotal + 1 ∧ g'.nv = g.nv ∧
        g'.c0.size ≤ S.maxsz (max g.nv g.nTotal) 0))) ∨
    (c = 1 ∧ g'.c0.size = 0 ∧ g'.nTotal = g.nTotal + 1 ∧ g'.nv = g.nv ∧
      S.maxsz (max g.nv g.nTotal) 0 ≤ g.c0.size ∧
      ∃ i rise, i < RS ∧
        w ≤ 9 * (S.maxsz (max g.nv g.nTotal) (i + 1) + (g.c0.size - S.maxsz (max g.nv g.nTotal) 0)) ∧
        S.maxsz (max g.nv g.nTotal) i ≤ rise ∧
        RS * g'.c0.size + phi K g'.ks + rise ≤ RS * g.c0.size + phi K g.ks + RS) := by
  unfold addEdgeC at hr
  rw [containsForced_pure hF, hi.contains_eq hK he] at hr
  simp only [Res.ok_bind] at hr
  by_cases hm : e ∈ g.edgesOf
  · simp only [hm, decide_true, if_true, Res.ok.injEq, Prod.mk.injEq] at hr
    obtain ⟨rfl, rfl, rfl⟩ := hr
    exact Or.inl ⟨rfl, rfl, by omega, Or.inl rfl⟩
  simp only [hm, decide_false, Bool.false_eq_true, if_false] at hr
  have hl : e ∉ g.c0.live := fun hh => hm (List.mem_append_left _ hh)
  by_cases hlt : g.c0.size < S.maxsz (max g.nv g.nTotal) 0
  · rw [if_pos hlt] at hr
    obtain ⟨c', hc, hr⟩ := Res.bind_eq_ok.1 hr
    simp only [Res.ok.injEq, Prod.mk.injEq] at hr
    obtain ⟨rfl, rfl, rfl⟩ := hr
    have hroom : g.c0.room S g.nTotal := by
      by_contra hno
      rw [C0.insert_noroom hi.c0wf hl hno] at hc
      cases hc
    obtain ⟨c1, a1, a2, a3, a4, a5, a6⟩ := C0.insert_absent hi.c0wf hl hroom
    rw [hc] at a1; cases a1
    have hs : c'.size = g.c0.size + 1 := by
      rw [a2.size_eq, hi.c0wf.size_eq, a3]; simp
    refine Or.inl ⟨rfl, rfl, ?_, Or.inr ⟨hs, rfl, rfl, ?_⟩⟩
    · simp only; rw [hs, Nat.mul_succ]; omega
    · simp only; rw [hs]; omega
  · rw [if_neg hlt] at hr
    cases hs : selectLevel K S (max g.nv g.nTotal) g.ks 0 (S.maxsz (max g.nv g.nTotal) 0) with
    | none => rw [hs] at hr; cases hr
    | some i =>
      rw [hs] at hr
      simp only [hi.c0wf.converted_eq, Res.ok_bind] at hr
      obtain ⟨c', b1, b2, b3, b4, b5, b6, b7⟩ := hi.c0wf.clean_ok
      simp only [b1, Res.ok_bind, Res.ok.injEq, Prod.mk.injEq] at hr
      obtain ⟨rfl, rfl, rfl⟩ := hr
      have hlt' := (selectLevel_lt S _ _ _ _ _ hs).2
      rw [Nat.zero_add] at hlt'
      have hnd : (g.c0.live ++ [e]).Nodup := by
        rw [List.nodup_append]
        exact ⟨hi.c0wf.live_nodup, by simp, by
          intro a ha b hb hab; simp at hb; exact hl (hb ▸ hab ▸ ha)⟩
      have hrg : ∀ e' ∈ g.c0.live ++ [e], InRange g.nv e' := by
        intro e' he'
        rcases List.mem_append.1 he' with h1 | h1
        · exact hi.range e' (List.mem_append_left _ h1)
        · simp at h1; exact h1 ▸ he
      have hbv := hK.build_valid _ _ hnd hrg
      obtain ⟨m1, m2⟩ := mergeUpTo_fst hK (i + 1) (K.build (g.c0.live ++ [e]) g.nv) g.ks hbv hi.val
      obtain ⟨q1, q2⟩ := mergeCost_le hK (i + 1) (K.build (g.c0.live ++ [e]) g.nv) g.ks hbv hi.val
      have hks : (mergeUpTo K (i + 1) (K.build (g.c0.live ++ [e]) g.nv) g.ks).2.set i
          (some (mergeUpTo K (i + 1) (K.build (g.c0.live ++ [e]) g.nv) g.ks).1) =
          List.replicate i none ++ some (mergeUpTo K (i + 1) (K.build (g.c0.live ++ [e]) g.nv) g.ks).1 ::
            g.ks.drop (i + 1) := by
        rw [mergeUpTo_snd, set_replicate_drop hlt']
      generalize mergeUpTo K (i + 1) (K.build (g.c0.live ++ [e]) g.nv) g.ks = M at *
      have hsz := hi.c0wf.size_eq
      have hfin : (K.edges M.1).length ≤ g.c0.live.length + 1 + lens K (g.ks.take (i + 1)) := by
        have := (List.subperm_of_subset (hK.edges_nodup _ _ m1)
          (l₂ := g.c0.live ++ e :: flat K (g.ks.take (i + 1))) (fun e' he' => by
            rcases (m2 e').1 he' with h1 | h1
            · have h2 := (hK.build_edges _ _ hnd hrg e').1 h1
              rcases List.mem_append.1 h2 with h3 | h3
              · exact List.mem_append_left _ h3
              · simp at h3; subst h3; simp
            · simp [h1])).length_le
        simp only [List.length_append, List.length_cons] at this
        unfold lens; omega
      have htot : ∀ r, totals K (g.ks.take r) = lens K (g.ks.take r) := by
        intro r
        exact sum_total hK hi.val.take (fun t ht => hf.trees t (List.mem_of_mem_take ht))
      have hsel := selectLevel_eq_some S _ _ _ _ _ hs
      rw [Nat.sub_zero, htot] at hsel
      have hlen := hi.len
      have hiRS : i < RS := by omega
      have hdl : (g.ks.drop (i + 1)).length = RS - 1 - i := by rw [List.length_drop, hlen]; omega
      have hsplit : phi K g.ks = phi K (g.ks.take i) + lens K (g.ks.take i) +
          (RS - 1 - i) * lens K (g.ks.take (i + 1)) + phi K (g.ks.drop (i + 1)) := by
        have h1 : g.ks = g.ks.take (i + 1) ++ g.ks.drop (i + 1) := (List.take_append_drop _ _).symm
        have h2 : g.ks.take (i + 1) = g.ks.take i ++ [g.ks[i]] := by
          rw [List.take_succ_eq_append_getElem hlt']
        have h3 : phi K (g.ks.take (i + 1)) = phi K (g.ks.take i) + lens K (g.ks.take i) := by
          rw [h2, phi_append]; simp [phi]
        conv_lhs => rw [h1]
        rw [phi_append, h3, hdl]
      have hc's : c'.size = 0 := by rw [b2.size_eq, b3]; rfl
      refine Or.inr ⟨rfl, hc's, rfl, rfl, by omega, i, g.c0.size + 1 + lens K (g.ks.take i), hiRS, ?_, ?_, ?_⟩
      · have h1 : (K.edges M.1).length ≤ S.maxsz (max g.nv g.nTotal) (i + 1) +
            (g.c0.size - S.maxsz (max g.nv g.nTotal) 0) := by omega
        have h2 : (i + 1) * (K.edges M.1).length ≤ 8 * (K.edges M.1).length :=
          Nat.mul_le_mul_right _ (by unfold RS at hiRS; omega)
        omega
      · by_cases h0 : i = 0
        · subst h0; omega
        · have := selectLevel_below S _ _ _ _ _ hs (i - 1) (by omega) (by omega)
          have e1 : i - 1 + 1 = i := by omega
          have e2 : i - 1 - 0 + 1 = i := by omega
          rw [e1, e2, htot] at this
          omega
      · simp only
        rw [hks, hc's, hsplit, phi_append, phi, phi_replicate, lens_replicate, hdl]
        have h1 : (RS - 1 - i) * (oedges K (some M.1)).length ≤
            (RS - 1 - i) * (g.c0.size + 1) + (RS - 1 - i) * lens K (g.ks.take (i + 1)) := by
          rw [← Nat.mul_add]
          exact Nat.mul_le_mul_left _ (by rw [hsz]; exact hfin)
        have h2 : RS * (g.c0.size + 1) = (RS - 1 - i) * (g.c0.size + 1) + (i + 1) * (g.c0.size + 1) := by
          rw [← Nat.add_mul]; congr 1; omega
        have h3 : g.c0.size + 1 ≤ (i + 1) * (g.c0.size + 1) := Nat.le_mul_of_pos_left _ (by omega)
        have h4 : RS * (g.c0.size + 1) = RS * g.c0.size + RS := by ring
        omega

end DK
end DK2
