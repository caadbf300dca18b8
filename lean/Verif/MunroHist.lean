import Verif.MunroInv
import Mathlib.Data.Finset.Dedup
/-!
# `DKtree_delay_munro`: histories
-/

namespace DK2
open Bits

/-- The edges a history inserts, in order. -/
def added : List Op → List Edge
  | [] => []
  | .add e :: os => e :: added os
  | .del _ :: os => added os

theorem mem_added {ops : List Op} {e : Edge} : e ∈ added ops ↔ Op.add e ∈ ops := by
  induction ops with
  | nil => simp [added]
  | cons o os ih => cases o <;> simp [added, ih]

theorem added_length (ops : List Op) : (added ops).length ≤ ops.length := by
  induction ops with
  | nil => simp [added]
  | cons o os ih => cases o <;> simp [added] <;> omega

theorem added_append (a b : List Op) : added (a ++ b) = added a ++ added b := by
  induction a with
  | nil => rfl
  | cons o os ih => cases o <;> simp [added, ih]

namespace DKM

/-- The capacity of the buffer shrinks by at most one as the graph grows. -/
def Near (S : Sizing) (n : Nat) : Prop := ∀ m m', n ≤ m → m ≤ m' → S.maxsz m 0 ≤ S.maxsz m' 0 + 1

/-- The buffer and the pending batch are not larger than the capacity allows. -/
def Cap (P : MPar) (n : Nat) (d : DKM) (p : Option Pd) : Prop :=
  ∀ m, max n d.nTotal ≤ m → d.c0.live.length ≤ P.S.maxsz m 0 + 1 ∧ ∀ q, p = some q → q.F.length ≤ P.S.maxsz m 0 + 2

/-- What is known after inserting the edges `G`. -/
structure Track (P : MPar) (n : Nat) (G : List Edge) (d : DKM) (es : List (Option (List Edge))) (p : Option Pd) :
    Prop where
  inv : MInv P n d es p
  sound : ∀ x, held d es p x → x ∈ G
  comp : P.nd = false → ∀ x ∈ G, held d es p x
  lo : G.dedup.length ≤ d.nTotal
  hi : d.nTotal ≤ G.length
  tmp : d.tmpEdge = (0, 0) ∨ d.tmpEdge ∈ G
  cap : Near P.S n → Cap P n d p

/-- `add_edge` reached `assert(union_support.has_finish())` with a union pending: `q` is the union, `d1` the state
at the assertion. -/
structure Stuck (P : MPar) (n : Nat) (d : DKM) (es : List (Option (List Edge))) (p : Option Pd) (e : Edge)
    (d1 : DKM) (es1 : List (Option (List Edge))) (q : Pd) : Prop where
  st : Stepped P n d es p d1 es1 (some q)
  unseen : ¬ seen d1 es1 (some q) e
  full : P.S.maxsz (max n d.nTotal) 0 ≤ d1.c0.live.length

theorem dedup_snoc_mem {G : List Edge} {e : Edge} (h : e ∈ G) : (G ++ [e]).dedup.length = G.dedup.length := by
  rw [← List.card_toFinset, ← List.card_toFinset]
  congr 1
  ext x
  simp only [List.mem_toFinset, List.mem_append, List.mem_singleton]
  constructor
  · rintro (h1 | rfl)
    · exact h1
    · exact h
  · exact Or.inl

theorem dedup_snoc_le (G : List Edge) (e : Edge) : (G ++ [e]).dedup.length ≤ G.dedup.length + 1 := by
  have := dedup_append_le' G [e]
  have h2 : [e].dedup.length ≤ 1 := by simp
  omega

theorem Stepped.cap {P : MPar} {n : Nat} {d d' : DKM} {es es' : List (Option (List Edge))} {p p' : Option Pd}
    (u : Stepped P n d es p d' es' p') (hc : Cap P n d p) : Cap P n d' p' := by
  have hlive : ∀ m, max n d'.nTotal ≤ m → d'.c0.live.length ≤ P.S.maxsz m 0 + 1 := by
    intro m hm; rw [u.c0]; exact (hc m (by rw [← u.nT]; exact hm)).1
  rcases u.how with ⟨h1, h2, h3⟩ | ⟨q, h1, h2, h3, _⟩ | ⟨q, h1, h2, h3, _⟩
  · subst h1 h2 h3
    exact fun m hm => ⟨hlive m hm, by intro q hq; cases hq⟩
  · subst h1 h2 h3
    exact fun m hm => ⟨hlive m hm, by intro q hq; cases hq⟩
  · subst h1 h2 h3
    refine fun m hm => ⟨hlive m hm, ?_⟩
    intro q' hq'; cases hq'; exact (hc m (by rw [← u.nT]; exact hm)).2 q rfl

theorem Cap.flushed {P : MPar} {n : Nat} {d d' : DKM} {p p' : Option Pd} {e : Edge} (hc : Cap P n d p)
    (h1 : d'.c0.live = []) (h2 : d.nTotal ≤ d'.nTotal) (h3 : ∀ q, p' = some q → q.F = d.c0.live ++ [e]) :
    Cap P n d' p' := by
  intro m hm
  refine ⟨by rw [h1]; simp, ?_⟩
  intro q hq
  rw [h3 q hq, List.length_append, List.length_singleton]
  have := (hc m (by omega)).1
  omega

/-- `add_edge` from a tracked state, whatever the number of insertions so far. -/
theorem Track.addEdge_any {P : MPar} (hT : P.S.Top) {n : Nat} (hc : Ctx P n 0) {G : List Edge} {d : DKM}
    {es : List (Option (List Edge))} {p : Option Pd} (t : Track P n G d es p)
    (hu : P.k * P.k ∣ 2 ^ 32 ∨ Ctx P n (G.length + 1)) {e : Edge} (he : InRange n e) :
    (d.addEdge P e = .ub ∧ ¬ Ctx P n (G.length + 1)) ∨
    (P.nd = false ∧ d.addEdge P e = .abort ∧ ∃ d1 es1 q, Stuck P n d es p e d1 es1 q) ∨
    ∃ d' es' p', d.addEdge P e = .ok d' ∧ Track P n (G ++ [e]) d' es' p' := by
  have hhi := t.hi
  have hmono : Ctx P n (G.length + 1) → Ctx P n (d.nTotal + 1) := fun h => h.mono (by omega)
  rcases t.inv.addEdge_any hT hc (hu.imp id hmono) he with ⟨h1, h2⟩ | ⟨d1, es1, p1, u, H⟩
  · exact Or.inl ⟨h1, fun h => h2 (hmono h)⟩
  right
  have hlo := t.lo
  have hg : ∀ x, x ∈ G ++ [e] ↔ x = e ∨ x ∈ G := by
    intro x; rw [List.mem_append, List.mem_singleton]; tauto
  have hsn := dedup_snoc_le G e
  have htmp : d1.tmpEdge = (0, 0) ∨ d1.tmpEdge ∈ G ++ [e] := by
    rw [u.tmp, hg]
    rcases t.tmp with h | h
    · exact Or.inl h
    · exact Or.inr (Or.inr h)
  rcases H with ⟨d', es', p', h1, h2, h3, h4⟩ | ⟨h1, h2, q, h3, h4⟩
  · right
    refine ⟨d', es', p', h1, h2, ?_, ?_, ?_, ?_, ?_, ?_⟩
    · intro x hx
      rw [hg]
      rcases (h3 x).1 hx with h5 | h5
      · exact Or.inl h5
      · exact Or.inr (t.sound x h5)
    · intro hnd x hx
      rw [h3]
      rcases (hg x).1 hx with h5 | h5
      · exact Or.inl h5
      · exact Or.inr (t.comp hnd x h5)
    · rcases h4 with ⟨a1, rfl, a3, a4⟩ | ⟨_, a2, _⟩
      · have : e ∈ G := t.sound e ((u.held e).1 (u.inv.seen_held a1))
        rw [dedup_snoc_mem this, u.nT]; exact hlo
      · omega
    · rw [List.length_append, List.length_singleton]
      rcases h4 with ⟨_, rfl, _⟩ | ⟨_, a2, _⟩
      · rw [u.nT]; omega
      · omega
    · rcases h4 with ⟨_, rfl, _⟩ | ⟨_, _, ⟨_, _, _, _, _, a⟩ | ⟨_, _, _, a, _⟩⟩
      · exact htmp
      · rw [a]; exact htmp
      · rw [a]; right; simp
    · intro hnear
      have l2 := u.cap (t.cap hnear)
      rcases h4 with ⟨_, rfl, rfl, rfl⟩ | ⟨_, a2, ⟨a3, a4, rfl, rfl, _⟩ | ⟨a3, rfl, a4, _, a5, _⟩⟩
      · exact l2
      · intro m hm
        have hm' : max n d.nTotal ≤ m := by rw [a2] at hm; omega
        refine ⟨?_, (l2 m (by rw [u.nT]; exact hm')).2⟩
        rw [a4, List.length_append, List.length_singleton]
        have := hnear (max n d.nTotal) m (le_max_left _ _) hm'
        omega
      · exact l2.flushed a4 (by rw [u.nT]; omega) (fun q hq => (a5 q hq).1)
  · subst h3
    rcases h4 with ⟨h5, h6⟩ | ⟨h5, d', es', p', h6, h7, h8, h9, h10, h11, h12, h13⟩
    · left
      exact ⟨h5, h6, d1, es1, q, u, h1, h2⟩
    · right
      refine ⟨d', es', p', h6, h7, ?_, ?_, by omega, ?_, ?_, ?_⟩
      · intro x hx
        rw [hg]
        rcases h8 x hx with h14 | h14
        · exact Or.inl h14
        · exact Or.inr (t.sound x h14)
      · intro hnd; rw [hnd] at h5; cases h5
      · rw [List.length_append, List.length_singleton]; omega
      · rw [h12]; right; simp
      · intro hnear
        exact (u.cap (t.cap hnear)).flushed h11 (by rw [u.nT]; omega) (fun q hq => (h13.1 q hq).1)

theorem Track.addEdge {P : MPar} (hT : P.S.Top) {n N : Nat} (hc : Ctx P n N) {G : List Edge} {d : DKM}
    {es : List (Option (List Edge))} {p : Option Pd} (t : Track P n G d es p) (hN : G.length + 1 ≤ N) {e : Edge}
    (he : InRange n e) :
    (P.nd = false ∧ d.addEdge P e = .abort ∧ ∃ d1 es1 q, Stuck P n d es p e d1 es1 q) ∨
    ∃ d' es' p', d.addEdge P e = .ok d' ∧ Track P n (G ++ [e]) d' es' p' := by
  rcases t.addEdge_any hT hc.zero (Or.inr (hc.mono hN)) he with ⟨_, h⟩ | h
  · exact absurd (hc.mono hN) h
  · exact h

theorem track_init (P : MPar) (n : Nat) : Track P n [] (init P n) (List.replicate RS none) none where
  inv := init_inv P n
  sound := fun x hx => absurd hx (init_held P n x)
  comp := fun _ x hx => absurd hx (by simp)
  lo := by simp
  hi := by simp [init]
  tmp := Or.inl rfl
  cap := fun _ m _ => ⟨by simp [init], by intro q hq; cases hq⟩

theorem runFrom_append (P : MPar) (a b : List Op) (d : DKM) :
    runFrom P d (a ++ b) = (runFrom P d a) >>= fun d' => runFrom P d' b := by
  induction a generalizing d with
  | nil => rfl
  | cons o os ih =>
    simp only [List.cons_append, runFrom]
    cases step P d o <;> simp [ih]

theorem run_snoc (P : MPar) (n : Nat) (a : List Op) (o : Op) :
    run P n (a ++ [o]) = (run P n a) >>= fun d => step P d o := by
  unfold run
  cases create P n with
  | ok d =>
    simp only [Res.ok_bind, runFrom_append]
    congr 1
    funext d'
    simp only [runFrom]
    cases step P d' o <;> rfl
  | _ => rfl

theorem run_nil (P : MPar) {n : Nat} (h : 2 ≤ n) : run P n [] = .ok (init P n) := by
  unfold run create
  rw [if_neg (by omega)]
  rfl

/-- Every history returns, or ends at the assertion, or — only if the size estimate can be too small for it — is undefined. -/
theorem run_track_any {P : MPar} (hT : P.S.Top) {n : Nat} (hc : Ctx P n 0) {ops : List Op} (hr : OpsInRange n ops)
    (hu : P.k * P.k ∣ 2 ^ 32 ∨ Ctx P n (added ops).length) :
    (run P n ops = .ub ∧ ¬ Ctx P n (added ops).length) ∨
    (P.nd = false ∧ run P n ops = .abort ∧ ∃ pre e, (∃ post, ops = pre ++ Op.add e :: post) ∧
      ∃ d es p d1 es1 q, run P n pre = .ok d ∧ Track P n (added pre) d es p ∧ Stuck P n d es p e d1 es1 q) ∨
    ∃ d es p, run P n ops = .ok d ∧ Track P n (added ops) d es p := by
  induction ops using List.reverseRecOn with
  | nil => exact Or.inr (Or.inr ⟨_, _, _, run_nil P hc.two, track_init P n⟩)
  | append_singleton ops o ih =>
    have hr' : OpsInRange n ops := fun o ho => hr o (by simp [ho])
    have hlen := added_append ops [o]
    have hmono : Ctx P n (added (ops ++ [o])).length → Ctx P n (added ops).length :=
      fun h => h.mono (by rw [hlen, List.length_append]; omega)
    rcases ih hr' (hu.imp id hmono) with ⟨h1, h2⟩ | ⟨h1, h2, pre, e, ⟨post, h3⟩, h4⟩ | ⟨d, es, p, h1, t⟩
    · left
      exact ⟨by rw [run_snoc, h1]; rfl, fun h => h2 (hmono h)⟩
    · right; left
      refine ⟨h1, by rw [run_snoc, h2]; rfl, pre, e, ⟨post ++ [o], by rw [h3]; simp⟩, h4⟩
    · cases o with
      | del e =>
        right; right
        refine ⟨d, es, p, by rw [run_snoc, h1]; rfl, ?_⟩
        rw [hlen]; simpa [added] using t
      | add e =>
        have he : InRange n e := hr (.add e) (by simp)
        have hlen' : (added (ops ++ [Op.add e])).length = (added ops).length + 1 := by rw [hlen]; simp [added]
        rw [hlen'] at hu ⊢
        rw [hlen]
        simp only [added]
        rcases t.addEdge_any hT hc hu he with ⟨h2, h3⟩ | ⟨h2, h3, d1, es1, q, h4⟩ | ⟨d', es', p', h2, h3⟩
        · left
          exact ⟨by rw [run_snoc, h1]; exact h2, h3⟩
        · right; left
          refine ⟨h2, by rw [run_snoc, h1]; exact h3, ops, e, ⟨[], rfl⟩, d, es, p, d1, es1, q, h1, t, h4⟩
        · right; right
          exact ⟨d', es', p', by rw [run_snoc, h1]; exact h2, h3⟩

/-- Every history returns, or ends at the assertion. -/
theorem run_track {P : MPar} (hT : P.S.Top) {n N : Nat} (hc : Ctx P n N) {ops : List Op} (hr : OpsInRange n ops)
    (hN : (added ops).length ≤ N) :
    (P.nd = false ∧ run P n ops = .abort ∧ ∃ pre e, (∃ post, ops = pre ++ Op.add e :: post) ∧
      ∃ d es p d1 es1 q, run P n pre = .ok d ∧ Track P n (added pre) d es p ∧ Stuck P n d es p e d1 es1 q) ∨
    ∃ d es p, run P n ops = .ok d ∧ Track P n (added ops) d es p := by
  rcases run_track_any hT hc.zero hr (Or.inr (hc.mono hN)) with ⟨_, h⟩ | h
  · exact absurd (hc.mono hN) h
  · exact h

/-- A history that returns leaves a tracked state. -/
theorem run_ok {P : MPar} (hT : P.S.Top) {n N : Nat} (hc : Cond P n N) {ops : List Op} (hr : OpsInRange n ops)
    (hN : (added ops).length ≤ N) {d : DKM} (h : run P n ops = .ok d) :
    ∃ es p, Track P n (added ops) d es p := by
  rcases run_track_any hT hc.base hr (hc.mono hN).est with ⟨h2, _⟩ | ⟨_, h2, _⟩ | ⟨d', es, p, h1, t⟩
  · rw [h2] at h; cases h
  · rw [h2] at h; cases h
  · rw [h1] at h; cases h; exact ⟨es, p, t⟩

end DKM
end DK2
