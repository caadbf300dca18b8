import Verif.MunroBudget
import Verif.Hist
/-!
# `DKtree_delay_munro`: following a history of distinct insertions on the edge lists alone

While no assertion fails, the pending union is finished before the next one starts, so what the levels will hold is
determined by the inserted edges and the thresholds.  `plan` computes it.  `Late` describes the calls between a flush
whose union needs too many steps and the assertion.
-/

namespace DK2
open Bits

namespace DKM

/-- What the levels hold once the pending union is finished. -/
def ev (es : List (Option (List Edge))) : Option Pd → List (Option (List Edge))
  | none => es
  | some q => US.merged q.F es q.m

/-- Levels (as they will be), buffer, number of insertions. -/
structure Plan where
  ls : List (Option (List Edge))
  live : List Edge
  nT : Nat

/-- One insertion of a new edge. -/
def Plan.step (P : MPar) (n : Nat) (s : Plan) (e : Edge) : Plan :=
  if s.live.length < P.S.maxsz (max n s.nT) 0 then ⟨s.ls, s.live ++ [e], s.nT + 1⟩
  else
    match selectLevel P.S (max n s.nT) (US.stored P.k (P.H n) n s.ls) 0 (P.S.maxsz (max n s.nT) 0) with
    | none => s
    | some i => ⟨US.merged (s.live ++ [e]) s.ls i, [], s.nT + 1⟩

/-- The state `d` follows the plan `s`. -/
structure On (P : MPar) (n : Nat) (s : Plan) (d : DKM) (es : List (Option (List Edge))) (p : Option Pd) : Prop where
  inv : MInv P n d es p
  ls : ev es p = s.ls
  live : d.c0.live = s.live
  nT : d.nTotal = s.nT

theorem Stepped.ev {P : MPar} {n : Nat} {d d' : DKM} {es es' : List (Option (List Edge))} {p p' : Option Pd}
    (h : Stepped P n d es p d' es' p') : ev es' p' = ev es p := by
  rcases h.how with ⟨h1, h2, h3⟩ | ⟨q, h1, h2, h3, _⟩ | ⟨q, h1, h2, h3, _⟩
  · rw [h1, h2, h3]
  · rw [h1, h2, h3]; rfl
  · rw [h1, h2, h3]; rfl

/-- An insertion of an edge that is not held follows the plan, unless the assertion fails. -/
theorem On.step {P : MPar} (hT : P.S.Top) {n N : Nat} (hc : Ctx P n N) {s : Plan} {d : DKM}
    {es : List (Option (List Edge))} {p : Option Pd} (h : On P n s d es p) (hN : d.nTotal + 1 ≤ N) {e : Edge}
    (he : InRange n e) (hnew : ¬ held d es p e) (hnd : P.nd = false) :
    (d.addEdge P e = .abort) ∨
    ∃ d' es' p', d.addEdge P e = .ok d' ∧ On P n (s.step P n e) d' es' p' ∧
      ∀ x, held d' es' p' x ↔ x = e ∨ held d es p x := by
  obtain ⟨d1, es1, p1, u, H⟩ := h.inv.addEdge hT hc hN he
  have hev : ev es1 p1 = s.ls := by rw [u.ev, h.ls]
  have hlv : d1.c0.live = s.live := by rw [u.c0, h.live]
  have hnT := h.nT
  have huns : ¬ seen d1 es1 p1 e := fun hh => hnew ((u.held e).1 (u.inv.seen_held hh))
  rcases H with ⟨d', es', p', h1, h2, h3, h4⟩ | ⟨h1, h2, q, h3, h4⟩
  · right
    refine ⟨d', es', p', h1, ?_, h3⟩
    rcases h4 with ⟨a, _⟩ | ⟨_, a2, ⟨a3, a4, rfl, rfl, _⟩ | ⟨a3, rfl, a4, _, a5, i, a6, a7, a8, a9⟩⟩
    · exact absurd a huns
    · unfold Plan.step
      rw [hlv, hnT] at a3
      rw [if_pos a3]
      exact ⟨h2, hev, by rw [a4, hlv], by rw [a2, hnT]⟩
    · unfold Plan.step
      rw [hlv, hnT] at a3
      rw [if_neg (by omega)]
      have hes : es1 = s.ls := hev
      rw [u.inv.nv, u.nT, hnT, u.inv.st.2, hes] at a7
      rw [a7]
      refine ⟨h2, ?_, a4, by rw [a2, hnT]⟩
      cases hp : p' with
      | none => rw [hlv, hes] at a8; exact (a8 hp).1
      | some q =>
        obtain ⟨b1, b2⟩ := a5 q hp
        show US.merged q.F es' q.m = _
        rw [b1, b2, (a9 q hp).1, hlv, hes]
  · rcases h4 with ⟨h5, h6⟩ | ⟨h5, _⟩
    · exact Or.inl h6
    · rw [hnd] at h5; cases h5

/-- The plan of a sequence of insertions. -/
def plan (P : MPar) (n : Nat) (G : List Edge) : Plan := G.foldl (Plan.step P n) ⟨List.replicate RS none, [], 0⟩

theorem added_inserts (G : List Edge) : added (DK.inserts G) = G := by
  induction G with
  | nil => rfl
  | cons e G ih => simpa [DK.inserts, added] using ih

theorem inserts_snoc (G : List Edge) (e : Edge) : DK.inserts (G ++ [e]) = DK.inserts G ++ [Op.add e] := by
  simp [DK.inserts]

/-- A history of distinct insertions follows the plan, unless the assertion fails. -/
theorem plan_run {P : MPar} (hT : P.S.Top) {n N : Nat} (hc : Ctx P n N) (hnd : P.nd = false) :
    ∀ {G : List Edge}, (∀ e ∈ G, InRange n e) → G.Nodup → G.length ≤ N →
    run P n (DK.inserts G) = .abort ∨
    ∃ d es p, run P n (DK.inserts G) = .ok d ∧ On P n (plan P n G) d es p ∧ ∀ x, held d es p x ↔ x ∈ G := by
  intro G
  induction G using List.reverseRecOn with
  | nil =>
    intro _ _ _
    right
    refine ⟨_, _, _, run_nil P hc.two, ⟨init_inv P n, rfl, by simp [init, plan], rfl⟩, ?_⟩
    intro x
    simp [init_held P n x]
  | append_singleton G e ih =>
    intro hr hnod hN
    rw [List.nodup_append] at hnod
    rw [List.length_append, List.length_singleton] at hN
    rw [inserts_snoc, run_snoc]
    rcases ih (fun x hx => hr x (by simp [hx])) hnod.1 (by omega) with h1 | ⟨d, es, p, h1, h2, h3⟩
    · left; rw [h1]; rfl
    · rw [h1]
      have hin : OpsInRange n (DK.inserts G) := by
        intro o ho
        obtain ⟨x, hx, rfl⟩ := List.mem_map.1 ho
        exact hr x (by simp [hx])
      obtain ⟨es', p', t⟩ := run_ok hT hc.cond hin (by rw [added_inserts]; omega) h1
      have hle := t.hi
      rw [added_inserts] at hle
      have hnew : ¬ held d es p e := by
        rw [h3]
        intro hh
        exact hnod.2.2 e hh e (by simp) rfl
      rcases h2.step hT hc (by omega) (hr e (by simp)) hnew hnd with h4 | ⟨d', es', p', h4, h5, h6⟩
      · left; exact h4
      · right
        refine ⟨d', es', p', h4, ?_, ?_⟩
        · unfold plan; rw [List.foldl_append]; exact h5
        · intro x
          rw [h6, h3, List.mem_append, List.mem_singleton]; tauto

/-! ### a union that needs too many steps -/

/-- A pending union with `D` groups done, `live` in the buffer. -/
structure Busy (P : MPar) (n : Nat) (F : List Edge) (es : List (Option (List Edge))) (m it D nT : Nat) (l : Nat) (d : DKM) :
    Prop where
  inv : MInv P n d es (some ⟨F, m, D⟩)
  it : d.us.iter = it
  live : d.c0.live.length = l
  nT : d.nTotal = nT

/-- The call that starts the union. -/
theorem On.start {P : MPar} (hT : P.S.Top) {n N : Nat} (hc : Ctx P n N) {s : Plan} {d : DKM}
    {es : List (Option (List Edge))} {p : Option Pd} (h : On P n s d es p) (hN : d.nTotal + 1 ≤ N) {e : Edge}
    (he : InRange n e) (hnew : ¬ held d es p e) (hnd : P.nd = false) {i : Nat}
    (hfull : P.S.maxsz (max n s.nT) 0 ≤ s.live.length)
    (hsel : selectLevel P.S (max n s.nT) (US.stored P.k (P.H n) n s.ls) 0 (P.S.maxsz (max n s.nT) 0) = some i)
    {it : Nat} (hit : it = US.iterSize (US.totalIter (US.stored P.k (P.H n) n s.ls) i
      (BT.encode P.k (P.H n) n (s.live ++ [e]))) (s.live ++ [e]).length)
    (hw : it < US.work P.k (P.H n) (s.live ++ [e]) s.ls (i + 1)) :
    (d.addEdge P e = .abort) ∨
    ∃ d', d.addEdge P e = .ok d' ∧ Busy P n (s.live ++ [e]) s.ls i it it (s.nT + 1) 0 d' ∧
      ∀ x, held d' s.ls (some ⟨s.live ++ [e], i, it⟩) x ↔ x = e ∨ held d es p x := by
  obtain ⟨d1, es1, p1, u, H⟩ := h.inv.addEdge hT hc hN he
  have hev : DKM.ev es1 p1 = s.ls := by rw [u.ev, h.ls]
  have hlv : d1.c0.live = s.live := by rw [u.c0, h.live]
  have hnT := h.nT
  have huns : ¬ seen d1 es1 p1 e := fun hh => hnew ((u.held e).1 (u.inv.seen_held hh))
  rcases H with ⟨d', es', p', h1, h2, h3, h4⟩ | ⟨h1, h2, q, h3, h4⟩
  · right
    rcases h4 with ⟨a, _⟩ | ⟨_, a2, ⟨a3, _⟩ | ⟨a3, rfl, a4, _, a5, j, a6, a7, a8, a9⟩⟩
    · exact absurd a huns
    · rw [hlv, hnT] at a3; omega
    · have hes : es1 = s.ls := hev
      rw [u.inv.nv, u.nT, hnT, u.inv.st.2, hes, hsel] at a7
      cases a7
      rw [hlv, hes, u.inv.nv, u.inv.st.2, hes, ← hit] at a8
      rw [hlv, u.inv.nv, u.inv.st.2, hes, ← hit] at a9
      cases hp : p' with
      | none => have := (a8 hp).2; omega
      | some q =>
        obtain ⟨b1, b2⟩ := a5 q hp
        obtain ⟨b3, b4⟩ := a9 q hp
        obtain ⟨F, m, D⟩ := q
        simp only at b1 b3 b4
        rw [hlv] at b1
        rw [hes] at b2
        subst hp b1 b2 b3 b4
        refine ⟨d', h1, ⟨h2, ?_, by rw [a4]; rfl, by rw [a2, hnT]⟩, h3⟩
        rw [h2.st.2.2.2.2.1]; exact hit.symm
  · rcases h4 with ⟨h5, h6⟩ | ⟨h5, _⟩
    · exact Or.inl h6
    · rw [hnd] at h5; cases h5

/-- An insertion while the union needs more steps: into the buffer if there is room, otherwise the assertion fails. -/
theorem Busy.step {P : MPar} (hT : P.S.Top) {n N : Nat} (hc : Ctx P n N) {F : List Edge}
    {es : List (Option (List Edge))} {m it D nT l : Nat} {d : DKM} (h : Busy P n F es m it D nT l d)
    (hN : nT + 1 ≤ N) {e : Edge} (he : InRange n e) (hnew : ¬ held d es (some ⟨F, m, D⟩) e) (hnd : P.nd = false)
    (hw : D + it < US.work P.k (P.H n) F es (m + 1)) :
    (P.S.maxsz (max n nT) 0 ≤ l ∧ d.addEdge P e = .abort) ∨
    (l < P.S.maxsz (max n nT) 0 ∧ ∃ d', d.addEdge P e = .ok d' ∧ Busy P n F es m it (D + it) (nT + 1) (l + 1) d' ∧
      ∀ x, held d' es (some ⟨F, m, D + it⟩) x ↔ x = e ∨ held d es (some ⟨F, m, D⟩) x) := by
  obtain ⟨d1, es1, p1, u, H⟩ := h.inv.addEdge hT hc (by rw [h.nT]; exact hN) he
  have huns : ¬ seen d1 es1 p1 e := fun hh => hnew ((u.held e).1 (u.inv.seen_held hh))
  have hlv : d1.c0.live.length = l := by rw [u.c0, h.live]
  obtain ⟨q1, q2, q3⟩ : p1 = some ⟨F, m, D + it⟩ ∧ es1 = es ∧ d1.us.iter = it := by
    rcases u.how with ⟨_, h2, _⟩ | ⟨q, h1, h2, h3⟩ | ⟨q, h1, h2, h3, h4⟩
    · cases h2
    · have := u.fin q h1 h2
      cases h1
      rw [h.it] at this
      simp only at this
      omega
    · cases h1
      rw [h.it] at h2 h4
      exact ⟨h2, h3, h4⟩
  subst q1 q2
  rcases H with ⟨d', es', p', h1, h2, h3, h4⟩ | ⟨h1, h2, q, h3, h4⟩
  · right
    rcases h4 with ⟨a, _⟩ | ⟨_, a2, ⟨a3, a4, rfl, rfl, a5, _⟩ | ⟨a3, a4, _⟩⟩
    · exact absurd a huns
    · rw [hlv, h.nT] at a3
      refine ⟨a3, d', h1, ⟨h2, by rw [a5, q3], by rw [a4]; simp [hlv], by rw [a2, h.nT]⟩, h3⟩
    · cases a4
  · left
    rcases h4 with ⟨h5, h6⟩ | ⟨h5, _⟩
    · rw [hlv, h.nT] at h2
      exact ⟨h2, h6⟩
    · rw [hnd] at h5; cases h5

/-- Insertions until the assertion fails: `X` are the edges that go into the buffer, `e` the one that does not fit. -/
theorem Busy.abort {P : MPar} (hT : P.S.Top) {n N : Nat} (hc : Ctx P n N) (hnd : P.nd = false) {F : List Edge}
    {es : List (Option (List Edge))} {m it : Nat} {e : Edge} (he : InRange n e) : ∀ {X : List Edge} {D nT l : Nat} {d : DKM},
    Busy P n F es m it D nT l d → (∀ x ∈ X, InRange n x) → (X ++ [e]).Nodup →
    (∀ x ∈ X ++ [e], ¬ held d es (some ⟨F, m, D⟩) x) → nT + X.length + 1 ≤ N →
    D + (X.length + 1) * it < US.work P.k (P.H n) F es (m + 1) →
    P.S.maxsz (max n (nT + X.length)) 0 ≤ l + X.length →
    runFrom P d (DK.inserts (X ++ [e])) = .abort := by
  intro X
  induction X with
  | nil =>
    intro D nT l d h _ _ hnew hN hw hfull
    simp only [List.length_nil, Nat.zero_add, Nat.one_mul, Nat.add_zero] at hN hw hfull
    rcases h.step hT hc hN he (hnew e (by simp)) hnd hw with ⟨_, h1⟩ | ⟨h1, _⟩
    · show (do let d' ← DKM.step P d (.add e); runFrom P d' []) = _
      show (do let d' ← d.addEdge P e; runFrom P d' []) = _
      rw [h1]; rfl
    · omega
  | cons x X ih =>
    intro D nT l d h hX hnod hnew hN hw hfull
    simp only [List.length_cons] at hN hw hfull
    rw [List.cons_append, List.nodup_cons] at hnod
    have e1 : (X.length + 1 + 1) * it = it + (X.length + 1) * it := by ring
    rw [e1] at hw
    have hrun : runFrom P d (DK.inserts ((x :: X) ++ [e])) =
        (do let d' ← d.addEdge P x; runFrom P d' (DK.inserts (X ++ [e]))) := rfl
    rw [hrun]
    rcases h.step hT hc (by omega) (hX x (by simp)) (hnew x (by simp)) hnd (by omega) with ⟨_, h1⟩ | ⟨_, d', h2, h3, h4⟩
    · rw [h1]; rfl
    · rw [h2]
      simp only [Res.ok_bind]
      refine ih h3 (fun y hy => hX y (by simp [hy])) hnod.2 ?_ (by omega) (by omega) ?_
      · intro y hy
        rw [h4]
        rintro (rfl | hh)
        · exact hnod.1 hy
        · exact hnew y (by rw [List.cons_append]; exact List.mem_cons_of_mem _ hy) hh
      · rw [show nT + 1 + X.length = nT + (X.length + 1) by omega, show l + 1 + X.length = l + (X.length + 1) by omega]
        exact hfull

theorem inserts_append (G X : List Edge) : DK.inserts (G ++ X) = DK.inserts G ++ DK.inserts X := by
  simp [DK.inserts]

/-- A history of distinct insertions that fails the assertion: `G` up to the flush, started by `f`, whose union needs
too many steps for the insertions `X` and `e` that follow. -/
theorem late_abort {P : MPar} (hT : P.S.Top) {n N : Nat} (hc : Ctx P n N) (hnd : P.nd = false) {G X : List Edge}
    {f e : Edge} (hr : ∀ x ∈ G ++ f :: (X ++ [e]), InRange n x) (hnod : (G ++ f :: (X ++ [e])).Nodup)
    (hN : G.length + X.length + 2 ≤ N) {ls : List (Option (List Edge))} {live : List Edge} {nT : Nat}
    (hp : plan P n G = ⟨ls, live, nT⟩) {i it : Nat} (hfull : P.S.maxsz (max n nT) 0 ≤ live.length)
    (hsel : selectLevel P.S (max n nT) (US.stored P.k (P.H n) n ls) 0 (P.S.maxsz (max n nT) 0) = some i)
    (hit : it = US.iterSize (US.totalIter (US.stored P.k (P.H n) n ls) i
      (BT.encode P.k (P.H n) n (live ++ [f]))) (live ++ [f]).length)
    (hw : (X.length + 2) * it < US.work P.k (P.H n) (live ++ [f]) ls (i + 1))
    (hfull2 : P.S.maxsz (max n (nT + 1 + X.length)) 0 ≤ X.length) :
    run P n (DK.inserts (G ++ f :: (X ++ [e]))) = .abort := by
  have hsplit : DK.inserts (G ++ f :: (X ++ [e])) = DK.inserts (G ++ [f]) ++ DK.inserts (X ++ [e]) := by
    rw [← inserts_append]; simp
  have hrun : run P n (DK.inserts (G ++ f :: (X ++ [e]))) =
      ((run P n (DK.inserts G)) >>= fun d => d.addEdge P f) >>= fun d => runFrom P d (DK.inserts (X ++ [e])) := by
    rw [hsplit]
    unfold run
    cases create P n with
    | ok d =>
      simp only [Res.ok_bind]
      rw [runFrom_append, inserts_snoc, runFrom_append]
      congr 1
      congr 1
      funext d'
      show (do let d'' ← d'.addEdge P f; runFrom P d'' []) = _
      cases d'.addEdge P f <;> rfl
    | _ => rfl
  rw [hrun]
  have hnod' := hnod
  rw [List.nodup_append] at hnod
  have hG := hnod.1
  rcases plan_run hT hc hnd (fun x hx => hr x (by simp [hx])) hG (by omega) with h1 | ⟨d, es, p, h1, h2, h3⟩
  · rw [h1]; rfl
  · rw [h1]
    simp only [Res.ok_bind]
    rw [hp] at h2
    have hin : OpsInRange n (DK.inserts G) := by
      intro o ho
      obtain ⟨x, hx, rfl⟩ := List.mem_map.1 ho
      exact hr x (by simp [hx])
    obtain ⟨es', p', t⟩ := run_ok hT hc.cond hin (by rw [added_inserts]; omega) h1
    have hle := t.hi
    rw [added_inserts] at hle
    have hnew : ¬ held d es p f := by
      rw [h3]
      intro hh
      exact hnod.2.2 f hh f (by simp) rfl
    have hw1 : it < US.work P.k (P.H n) (live ++ [f]) ls (i + 1) := by
      have : it ≤ (X.length + 2) * it := Nat.le_mul_of_pos_left it (by omega)
      omega
    have hnT := h2.nT
    simp only at hnT
    rcases h2.start hT hc (by omega) (hr f (by simp)) hnew hnd hfull hsel hit hw1 with h4 | ⟨d', h4, h5, h6⟩
    · rw [h4]; rfl
    · rw [h4]
      simp only [Res.ok_bind]
      have hnodf := hnod.2.1
      rw [List.nodup_cons] at hnodf
      refine h5.abort hT hc hnd (hr e (by simp)) (fun x hx => hr x (by simp [hx])) hnodf.2 ?_ ?_ ?_ ?_
      · intro x hx
        rw [h6, h3]
        rintro (rfl | hh)
        · exact hnodf.1 hx
        · exact hnod.2.2 x hh x (List.mem_cons_of_mem _ hx) rfl
      · simp only; omega
      · have : (X.length + 2) * it = it + (X.length + 1) * it := by ring
        show it + (X.length + 1) * it < US.work P.k (P.H n) (live ++ [f]) ls (i + 1)
        omega
      · simpa using hfull2

end DKM
end DK2
