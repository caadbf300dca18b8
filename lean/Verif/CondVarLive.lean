import Verif.CondVar
/-!
# Every call on `DKtree_background_wait` comes to an end

Without spurious wake-ups there is no infinite schedule (the worker sleeps when it has nothing to do), and a state without a next
step is one in which the call has returned, or a stretch of code outside the sections has failed.
-/

namespace DK2
namespace BG
variable {K : K2Impl}

/-- One step of either thread; `sp` allows spurious wake-ups. -/
def FStep {α : Type} (S : Sizing) (sp : Bool) (a b : FProg K α × FS K) : Prop :=
  FC sp a.1 a.2 b.1 b.2 ∨ (b.1 = a.1 ∧ FW S sp a.2 b.2)

/-- `cv_w.wait` returns in one of the threads although nobody has notified. -/
def Spurious {α : Type} (a b : FProg K α × FS K) : Prop :=
  b.1 = a.1 ∧ ((a.2.cm = .asleep ∧ b.2 = { a.2 with cm := .awake }) ∨ (a.2.wm = .asleep ∧ b.2 = { a.2 with wm := .awake }))

theorem FStep.split {α : Type} {S : Sizing} {a b : FProg K α × FS K} (h : FStep S true a b) :
    FStep S false a b ∨ Spurious a b := by
  obtain ⟨p, x⟩ := a
  obtain ⟨p', x'⟩ := b
  rcases h with h | ⟨h1, h⟩
  · have h : FC true p x p' x' := h
    cases h with
    | act h1 h2 => exact Or.inl (Or.inl (.act h1 h2))
    | lockW h1 h2 => exact Or.inl (Or.inl (.lockW h1 h2))
    | pass h1 h2 => exact Or.inl (Or.inl (.pass h1 h2))
    | sleep h1 h2 => exact Or.inl (Or.inl (.sleep h1 h2))
    | lockS h1 h2 => exact Or.inl (Or.inl (.lockS h1 h2))
    | set h1 => exact Or.inl (Or.inl (.set h1))
    | notify h1 => exact Or.inl (Or.inl (.notify h1))
    | unlock h1 => exact Or.inl (Or.inl (.unlock h1))
    | spurious _ h1 => exact Or.inr ⟨rfl, Or.inl ⟨h1, rfl⟩⟩
    | relock h1 h2 => exact Or.inl (Or.inl (.relock h1 h2))
  · have h : FW S true x x' := h
    simp only at h1
    subst h1
    cases h with
    | step h1 h2 h3 h4 h5 => exact Or.inl (Or.inr ⟨rfl, .step h1 h2 h3 h4 h5⟩)
    | lock h1 h2 h3 => exact Or.inl (Or.inr ⟨rfl, .lock h1 h2 h3⟩)
    | pass h1 h2 h3 => exact Or.inl (Or.inr ⟨rfl, .pass h1 h2 h3⟩)
    | sleep h1 h2 h3 h4 => exact Or.inl (Or.inr ⟨rfl, .sleep h1 h2 h3 h4⟩)
    | spurious _ h1 => exact Or.inr ⟨rfl, Or.inr ⟨h1, rfl⟩⟩
    | relock h1 h2 => exact Or.inl (Or.inr ⟨rfl, .relock h1 h2⟩)
    | unlock h1 h2 => exact Or.inl (Or.inr ⟨rfl, .unlock h1 h2⟩)
    | go h1 h2 h3 => exact Or.inl (Or.inr ⟨rfl, .go h1 h2 h3⟩)
    | stop h1 h2 h3 => exact Or.inl (Or.inr ⟨rfl, .stop h1 h2 h3⟩)
    | fin h1 h2 => exact Or.inl (Or.inr ⟨rfl, .fin h1 h2⟩)
    | notify h1 h2 => exact Or.inl (Or.inr ⟨rfl, .notify h1 h2⟩)
    | unlockF h1 h2 => exact Or.inl (Or.inr ⟨rfl, .unlockF h1 h2⟩)

/-! ## Termination -/

/-- The program after its first step. -/
inductive Child {α : Type} : FProg K α → FProg K α → Prop where
  | act {β : Type} {acc : Acc BLoc} {f : BG K → Res (BG K × β)} {k : β → FProg K α} (b : β) : Child (k b) (.act acc f k)
  | wait {k : FProg K α} : Child k (.lockWait k)
  | set {b : Bool} {k : FProg K α} : Child k (.lockSet b k)

theorem child_wf {α : Type} : WellFounded (Child : FProg K α → FProg K α → Prop) := by
  refine ⟨fun p => ?_⟩
  induction p with
  | ret a => exact ⟨_, fun q h => by cases h⟩
  | act acc g k ih => exact ⟨_, fun q h => by cases h; exact ih _⟩
  | lockWait k ih => exact ⟨_, fun q h => by cases h; exact ih⟩
  | lockSet b k ih => exact ⟨_, fun q h => by cases h; exact ih⟩

/-- How far the worker is from rest. -/
def wmaj : Bool → WPC K.T → Mic → Nat
  | true, .finish, .changed => 30
  | true, .finish, .closing => 29
  | true, .top, _ => 28
  | true, .test, .out => 27
  | true, .test, .awake => 26
  | true, .test, .inside => 25
  | true, .test, .closing => 24
  | true, .test, .checking => 23
  | true, .build, _ => 22
  | true, .search _, _ => 21
  | true, .merge _ _ _, _ => 20
  | true, .store _ _, _ => 19
  | true, .finish, .out => 18
  | true, .finish, .inside => 17
  | false, .build, _ => 30
  | false, .search _, _ => 29
  | false, .merge _ _ _, _ => 28
  | false, .store _ _, _ => 27
  | false, .finish, .out => 26
  | false, .finish, .inside => 25
  | false, .finish, .changed => 24
  | false, .finish, .closing => 23
  | false, .top, _ => 22
  | false, .test, .out => 21
  | false, .test, .awake => 20
  | false, .test, .inside => 19
  | false, .test, .closing => 18
  | false, .test, .checking => 17
  | _, _, _ => 0

/-- Iterations left in the merge loop. -/
def wmin : WPC K.T → Nat
  | .merge _ i j => i + 1 - j
  | _ => 0

/-- How far the user thread is in its section. -/
def crank : Mic → Nat
  | .closing => 4
  | .out => 3
  | .awake => 3
  | .inside => 2
  | .asleep => 1
  | _ => 0

/-- Decreases with every step that leaves the program of the user thread unchanged. -/
def meas (x : FS K) : Nat × Nat :=
  ((if x.cm = .changed then 200 else 0) + (if x.s.needs then 100 else 0) + wmaj x.s.needs x.w x.wm, wmin x.w * 10 + crank x.cm)

theorem wmaj_lt (b : Bool) (w : WPC K.T) (m : Mic) : wmaj b w m < 100 := by
  unfold wmaj; split <;> omega

/-- The order of the measures. -/
def MLt (a b : Nat × Nat) : Prop := a.1 < b.1 ∨ (a.1 = b.1 ∧ a.2 < b.2)

theorem mlt_wf : WellFounded MLt := by
  refine Subrelation.wf (r := Prod.Lex (· < ·) (· < ·)) ?_ (WellFounded.prod_lex Nat.lt_wfRel.wf Nat.lt_wfRel.wf)
  intro a b h
  obtain ⟨a1, a2⟩ := a
  obtain ⟨b1, b2⟩ := b
  rcases h with h | ⟨h1, h2⟩
  · exact Prod.Lex.left _ _ h
  · simp only at h1 h2; subst h1; exact Prod.Lex.right _ h2

theorem FC.meas {α : Type} {p p' : FProg K α} {x x' : FS K} (hs : FC false p x p' x') :
    Child p' p ∨ (p' = p ∧ MLt (meas x') (meas x)) := by
  cases hs with
  | act _ _ => exact Or.inl (.act _)
  | pass _ _ => exact Or.inl .wait
  | set _ => exact Or.inl .set
  | lockW hc _ => exact Or.inr ⟨rfl, Or.inr (by simp [BG.meas, hc, crank])⟩
  | sleep hc _ => exact Or.inr ⟨rfl, Or.inr (by simp [BG.meas, hc, crank])⟩
  | lockS hc _ => exact Or.inr ⟨rfl, Or.inr (by simp [BG.meas, hc, crank])⟩
  | notify hc =>
    refine Or.inr ⟨rfl, Or.inl ?_⟩
    have := wmaj_lt x.s.needs x.w x.wm.wake
    simp [BG.meas, hc]
    omega
  | unlock hc => exact Or.inr ⟨rfl, Or.inr (by simp [BG.meas, hc, crank])⟩
  | spurious h _ => cases h
  | relock hc _ => exact Or.inr ⟨rfl, Or.inr (by simp [BG.meas, hc, crank])⟩

theorem FW.meas {S : Sizing} {x x' : FS K} (hi : FInv x) (hs : FW S false x x') : MLt (meas x') (meas x) := by
  have key : ∀ y : FS K, y.cm = x.cm → y.s = x.s → wmaj x.s.needs y.w y.wm < wmaj x.s.needs x.w x.wm →
      MLt (BG.meas y) (BG.meas x) := by
    intro y h1 h2 h3
    refine Or.inl ?_
    simp only [BG.meas, h1, h2]
    omega
  cases hs with
  | @step s' w' hw ht hf hst hx =>
    obtain ⟨_, e2⟩ := wstep_flags hx
    have e2 := e2 hf
    have k1 : wmaj x.s.needs w' .out < wmaj x.s.needs x.w .out →
        MLt (BG.meas ⟨s', x.cm, w', x.wm⟩) (BG.meas x) := by
      intro h
      refine Or.inl ?_
      simp only [BG.meas, e2, hw]
      omega
    cases hxw : x.w with
    | top =>
      refine k1 ?_
      rw [hxw] at hx ⊢
      simp only [wstep] at hx; cases hx
      cases x.s.run <;> cases x.s.needs <;> simp [wmaj]
    | test => exact absurd hxw ht
    | build =>
      refine k1 ?_
      rw [hxw] at hx ⊢
      simp only [wstep] at hx; cases hx
      cases x.s.needs <;> simp [wmaj]
    | search t =>
      refine k1 ?_
      rw [hxw] at hx ⊢
      simp only [wstep] at hx
      split at hx
      · cases hx
      · cases hx; cases x.s.needs <;> simp [wmaj]
    | merge t i j =>
      have hd : j ≤ i → ∀ t', MLt (BG.meas ⟨s', x.cm, .merge t' i (j + 1), x.wm⟩) (BG.meas x) := by
        intro hj t'
        refine Or.inr ⟨?_, ?_⟩
        · simp only [BG.meas, e2, hw, hxw]
          cases x.s.needs <;> simp [wmaj]
        · simp only [BG.meas, hxw, wmin]
          omega
      rw [hxw] at hx
      simp only [wstep] at hx
      split at hx
      · rename_i hj
        split at hx
        · cases hx
        · cases hx; exact hd hj _
        · cases hx; exact hd hj _
      · cases hx
        refine k1 ?_
        rw [hxw]
        cases x.s.needs <;> simp [wmaj]
    | store t i =>
      refine k1 ?_
      rw [hxw] at hx ⊢
      simp only [wstep] at hx
      rw [Res.bind_eq_ok] at hx
      obtain ⟨_, _, hx⟩ := hx
      cases hx; cases x.s.needs <;> simp [wmaj]
    | finish => exact absurd hxw hf
    | stopped => exact absurd hxw hst
  | lock hw ht hc =>
    refine key _ rfl rfl ?_
    rcases ht with ht | ht <;> cases x.s.needs <;> simp [wmaj, ht, hw]
  | pass ht hw hn =>
    refine key _ rfl rfl ?_
    cases x.s.needs <;> simp [wmaj, ht, hw]
  | sleep ht hw hn hr =>
    refine key _ rfl rfl ?_
    simp [wmaj, ht, hw, hn]
  | spurious h _ => cases h
  | relock hw hc =>
    refine key _ rfl rfl ?_
    have ht : x.w = .test := by
      rcases hi.pos (by simp [hw]) with h | ⟨_, h⟩
      · exact h.1
      · simp [hw] at h
    cases x.s.needs <;> simp [wmaj, ht, hw]
  | unlock ht hw =>
    refine key _ rfl rfl ?_
    cases x.s.needs <;> simp [wmaj, ht, hw]
  | go ht hw hr =>
    have hn : x.s.needs = true := by
      rcases hi.seen ht (Or.inr hw) with h | h
      · exact h
      · rw [hr] at h; cases h
    refine key _ rfl rfl ?_
    simp [wmaj, ht, hw, hn]
  | stop ht hw hr =>
    refine key _ rfl rfl ?_
    cases x.s.needs <;> simp [wmaj, ht, hw]
  | fin ht hw =>
    refine Or.inl ?_
    simp only [BG.meas, ht, hw]
    cases x.s.needs <;> simp [wmaj]
  | notify ht hw =>
    refine Or.inl ?_
    have hc : (x.cm.wake = .changed) = (x.cm = .changed) := by cases x.cm <;> simp [Mic.wake]
    simp only [BG.meas, ht, hw, hc]
    cases x.s.needs <;> simp [wmaj]
  | unlockF ht hw =>
    refine key _ rfl rfl ?_
    cases x.s.needs <;> simp [wmaj, ht, hw]

/-- There is no infinite schedule without spurious wake-ups. -/
theorem fstep_wf {α : Type} (S : Sizing) :
    WellFounded (fun b a : FProg K α × FS K => FInv a.2 ∧ FStep S false a b) := by
  have h := InvImage.wf (fun a : FProg K α × FS K => (a.1, meas a.2)) (WellFounded.prod_lex (child_wf (K := K) (α := α)) mlt_wf)
  refine Subrelation.wf ?_ h
  rintro ⟨p', x'⟩ ⟨p, x⟩ ⟨hi, hs⟩
  rcases hs with hs | ⟨hp, hs⟩
  · rcases hs.meas with h | ⟨h1, h2⟩
    · exact Prod.Lex.left _ _ h
    · simp only at h1; subst h1; exact Prod.Lex.right _ h2
  · simp only at hp; subst hp; exact Prod.Lex.right _ (hs.meas hi)

/-! ## States without a next step -/

/-- The worker cannot go on: the code outside its sections fails. -/
def WBad (S : Sizing) (x : FS K) : Prop := x.wm = .out ∧ ∀ r, wstep S x.s x.w ≠ .ok r

/-- The worker sleeps with nothing to do, or its function has returned. -/
def WRest (x : FS K) : Prop := (x.wm = .asleep ∧ x.s.needs = false ∧ x.s.run = true) ∨ (x.wm = .out ∧ x.w = .stopped)

theorem FInv.stuck {α : Type} {S : Sizing} {p : FProg K α} {x : FS K} (hi : FInv x) (hp : PM p x.cm) (ht : Tame p x)
    (hs : ∀ b, ¬ FStep S false (p, x) b) :
    WBad S x ∨ (x.cm = .out ∧ WRest x ∧ ((∃ a, p = .ret a) ∨ CBad p.erase x.s)) := by
  have hc : ∀ p' x', ¬ FC false p x p' x' := fun p' x' h => hs (p', x') (Or.inl h)
  have hw : ∀ x', ¬ FW S false x x' := fun x' h => hs (p, x') (Or.inr ⟨rfl, h⟩)
  have h1 : x.cm.holds = false := by
    cases hm : x.cm with
    | inside =>
      exfalso
      rw [hm] at hp
      cases p with
      | ret a => simp [PM] at hp
      | act acc f k => simp [PM] at hp
      | lockWait k =>
        cases hn : x.s.needs with
        | false => exact hc _ _ (.pass hm hn)
        | true => exact hc _ _ (.sleep hm hn)
      | lockSet b k => exact hc _ _ (.set hm)
    | changed => exact absurd (.notify hm) (hc p _)
    | closing => exact absurd (.unlock hm) (hc p _)
    | _ => rfl
  have h2 : (x.wm = .out ∧ x.w ≠ .test ∧ x.w ≠ .finish) ∨ x.wm = .asleep := by
    cases hm : x.wm with
    | out =>
      refine Or.inl ⟨rfl, fun h => hw _ (.lock hm (Or.inl h) h1), fun h => hw _ (.lock hm (Or.inr h) h1)⟩
    | asleep => exact Or.inr rfl
    | awake => exact absurd (.relock hm h1) (hw _)
    | inside =>
      exfalso
      rcases hi.pos (by simp [hm]) with h | h
      · cases hn : x.s.needs with
        | true => exact hw _ (.pass h.1 hm (Or.inl hn))
        | false =>
          cases hr : x.s.run with
          | false => exact hw _ (.pass h.1 hm (Or.inr hr))
          | true => exact hw _ (.sleep h.1 hm hn hr)
      · exact hw _ (.fin h.1 hm)
    | changed =>
      exfalso
      rcases hi.pos (by simp [hm]) with h | h
      · exact h.2 hm
      · exact hw _ (.notify h.1 hm)
    | closing =>
      exfalso
      rcases hi.pos (by simp [hm]) with h | h
      · exact hw _ (.unlock h.1 hm)
      · exact hw _ (.unlockF h.1 hm)
    | checking =>
      exfalso
      rcases hi.pos (by simp [hm]) with h | h
      · cases hr : x.s.run with
        | false => exact hw _ (.stop h.1 hm hr)
        | true => exact hw _ (.go h.1 hm hr)
      · simp [hm] at h
  have h3 : x.wm.holds = false := by
    rcases h2 with h | h
    · rw [h.1]; rfl
    · rw [h]; rfl
  have h4 : x.cm = .out ∨ x.cm = .asleep := by
    cases hm : x.cm with
    | out => exact Or.inl rfl
    | asleep => exact Or.inr rfl
    | awake => exact absurd (.relock hm h3) (hc p _)
    | checking =>
      rw [hm] at hp
      cases p <;> simp [PM] at hp
    | inside => rw [hm] at h1; simp [Mic.holds] at h1
    | changed => rw [hm] at h1; simp [Mic.holds] at h1
    | closing => rw [hm] at h1; simp [Mic.holds] at h1
  have h5 : WBad S x ∨ WRest x := by
    rcases h2 with ⟨g1, g2, g3⟩ | h
    · by_cases g4 : x.w = .stopped
      · exact Or.inr (Or.inr ⟨g1, g4⟩)
      · exact Or.inl ⟨g1, fun r hr => hw _ (.step g1 g2 g3 g4 (s' := r.1) (w' := r.2) hr)⟩
    · rcases hi.work h with g | g
      · exact Or.inr (Or.inl ⟨h, g⟩)
      · rw [g] at h1; simp [Mic.holds] at h1
  rcases h5 with h5 | h5
  · exact Or.inl h5
  right
  rcases h4 with h4 | h4
  · refine ⟨h4, h5, ?_⟩
    cases p with
    | ret a => exact Or.inl ⟨a, rfl⟩
    | act acc f k => exact Or.inr (fun r hr => hc _ _ (.act h4 (s' := r.1) (b := r.2) hr))
    | lockWait k => exact absurd (.lockW h4 h3) (hc _ _)
    | lockSet b k => exact absurd (.lockS h4 h3) (hc _ _)
  · exfalso
    rcases hi.user h4 with g | g
    · rcases h5 with h5 | h5
      · rw [h5.2.1] at g; cases g
      · have := ht.flags g
        rw [ht.1 h5.2] at this; cases this
    · rw [g] at h3; simp [Mic.holds] at h3

end BG
end DK2
