import Verif.CondVarLive
import Verif.PropsBg
import Mathlib.Logic.Relation
/-!
# C64: blocking in `DKtree_background_wait`

`FS`, `FC`, `FW`, `FExec`, `FReach` (`CondVar`) model the mutex and the condition variable step by step.
-/

namespace DK2
open BG
open DK (inserts)
variable {K : K2Impl}

/-- On every schedule without spurious wake-ups, after finitely many steps a state with `Q` is met; until then some thread can
always move.  (No fairness is assumed.) -/
inductive Inev {α : Type} (S : Sizing) (Q : FProg K α → FS K → Prop) : FProg K α → FS K → Prop where
  | here {p : FProg K α} {x : FS K} : Q p x → Inev S Q p x
  | step {p : FProg K α} {x : FS K} : (∃ b, FStep S false (p, x) b) → (∀ b, FStep S false (p, x) b → Inev S Q b.1 b.2) →
      Inev S Q p x

theorem Inev.of {α : Type} {S : Sizing} {Q I : FProg K α → FS K → Prop} (hI : ∀ p x, I p x → FInv x)
    (hs : ∀ p x b, I p x → FStep S false (p, x) b → I b.1 b.2)
    (hq : ∀ p x, I p x → (∀ b, ¬ FStep S false (p, x) b) → Q p x) {p : FProg K α} {x : FS K} (h : I p x) : Inev S Q p x := by
  have : ∀ a : FProg K α × FS K, I a.1 a.2 → Inev S Q a.1 a.2 := by
    intro a
    induction a using (fstep_wf S).induction with
    | _ a ih =>
      intro ha
      by_cases hb : ∃ b, FStep S false a b
      · exact .step hb (fun b h => ih b ⟨hI _ _ ha, h⟩ (hs _ _ _ ha h))
      · exact .here (hq _ _ ha (fun b h => hb ⟨b, h⟩))
  exact this (p, x) h

/-- What the two refinement invariants say about a state of a call. -/
def InCall {α : Type} (p : FProg K α) (x : FS K) : Prop := FInv x ∧ PM p x.cm ∧ Keeps p ∧ Tame p x

theorem BG.FC.mono {α : Type} {sp : Bool} {p p' : FProg K α} {x x' : FS K} (h : FC sp p x p' x') : FC true p x p' x' := by
  cases h with
  | act h1 h2 => exact .act h1 h2
  | lockW h1 h2 => exact .lockW h1 h2
  | pass h1 h2 => exact .pass h1 h2
  | sleep h1 h2 => exact .sleep h1 h2
  | lockS h1 h2 => exact .lockS h1 h2
  | set h1 => exact .set h1
  | notify h1 => exact .notify h1
  | unlock h1 => exact .unlock h1
  | spurious _ h1 => exact .spurious rfl h1
  | relock h1 h2 => exact .relock h1 h2

theorem BG.FW.mono {S : Sizing} {sp : Bool} {x x' : FS K} (h : FW S sp x x') : FW S true x x' := by
  cases h with
  | step h1 h2 h3 h4 h5 => exact .step h1 h2 h3 h4 h5
  | lock h1 h2 h3 => exact .lock h1 h2 h3
  | pass h1 h2 h3 => exact .pass h1 h2 h3
  | sleep h1 h2 h3 h4 => exact .sleep h1 h2 h3 h4
  | spurious _ h1 => exact .spurious rfl h1
  | relock h1 h2 => exact .relock h1 h2
  | unlock h1 h2 => exact .unlock h1 h2
  | go h1 h2 h3 => exact .go h1 h2 h3
  | stop h1 h2 h3 => exact .stop h1 h2 h3
  | fin h1 h2 => exact .fin h1 h2
  | notify h1 h2 => exact .notify h1 h2
  | unlockF h1 h2 => exact .unlockF h1 h2

theorem BG.FExec.step {α : Type} {S : Sizing} {sp : Bool} {p p' : FProg K α} {x x' : FS K} (h : FExec S true p x p' x')
    {b : FProg K α × FS K} (hb : FStep S sp (p', x') b) : FExec S true p x b.1 b.2 := by
  rcases hb with hb | ⟨h1, hb⟩
  · exact .caller h hb.mono
  · rw [h1]; exact .worker h hb.mono

theorem BG.FExec.trans {α : Type} {S : Sizing} {sp : Bool} {p p' p'' : FProg K α} {x x' x'' : FS K} (h : FExec S sp p x p' x')
    (h' : FExec S sp p' x' p'' x'') : FExec S sp p x p'' x'' := by
  induction h' with
  | start => exact h
  | caller _ hs ih => exact .caller ih hs
  | worker _ hs ih => exact .worker ih hs

/-- A modifying call or the destructor, run on an object reached by some history. -/
def Legit (S : Sizing) (p : FProg K Unit) : Prop := (∃ o, p = fcall S o) ∨ p = fdestroy

theorem Legit.inCall {S : Sizing} {n : Nat} {ops : List Op} {x : FS K} (hr : FReach K S n ops x) {p p' : FProg K Unit}
    (hp : Legit S p) {x' : FS K} (hx : FExec S true p x p' x') : InCall p' x' := by
  obtain ⟨h, _⟩ := hr.refine
  rcases hp with ⟨o, rfl⟩ | rfl
  · exact (hx.refine h.inv (h.pm _) (fcall_keeps S o) (h.tame (fcall_noStop S o))).1
  · exact (hx.refine h.inv (h.pm _) fdestroy_keeps h.destroy).1

/-! ## Faithfulness of the busy-wait model -/

/-- C64: whatever the step-by-step model does, the model of `Bg` does: the theorems about `Reach true` hold of it. -/
theorem C64_refines {S : Sizing} {n : Nat} {ops : List Op} {x : FS K} (h : FReach K S n ops x) :
    Reach true K S n ops x.s x.pc := h.refine.2

/-- The same inside the calls. -/
theorem C64_refines_calls {S : Sizing} {n : Nat} {ops : List Op} {x : FS K} (h : FReach K S n ops x) {o : Op}
    {p : FProg K Unit} {x' : FS K} (hx : FExec S true (fcall S o) x p x') :
    Exec (worker K S) (call true S o) x.s x.pc p.erase x'.s x'.pc := by
  obtain ⟨h, _⟩ := h.refine
  have := (hx.refine h.inv (h.pm _) (fcall_keeps S o) (h.tame (fcall_noStop S o))).2
  rwa [fcall_erase] at this

/-- The states of the two models that correspond in `C64_complete`: outside the sections, the same object, the same place in the
worker – except that the busy-waiting worker of `Bg` may be back at the head of its loop. -/
def Same (s : BG K) (w : WPC K.T) (x : FS K) : Prop :=
  x.s = s ∧ x.cm = .out ∧ x.wm = .out ∧ (x.w = w ∨ (w = .top ∧ x.w = .test))

theorem Same.worker {S : Sizing} {sp : Bool} {s s' : BG K} {w w' : WPC K.T} {x : FS K} (h : Same s w x)
    (hf : s.needs = true → s.run = true) (hs : wstep S s w = .ok (s', w')) :
    ∃ x', Relation.ReflTransGen (FW S sp) x x' ∧ Same s' w' x' := by
  obtain ⟨sx, cm, wx, wm⟩ := x
  obtain ⟨rfl, rfl, rfl, h⟩ := h
  simp only at h hs hf
  have hstep : wx = w → wx ≠ .test → wx ≠ .finish → wx ≠ .stopped →
      ∃ x', Relation.ReflTransGen (FW S sp) ⟨sx, .out, wx, .out⟩ x' ∧ Same s' w' x' := by
    rintro rfl h1 h2 h3
    exact ⟨⟨s', .out, w', .out⟩, .single (.step rfl h1 h2 h3 hs), rfl, rfl, rfl, Or.inl rfl⟩
  have hstop : sx.run = false → Relation.ReflTransGen (FW S sp) ⟨sx, .out, .test, .out⟩ ⟨sx, .out, .stopped, .out⟩ := by
    intro hr
    refine .tail (.tail (.tail (.single (.lock rfl (Or.inl rfl) rfl)) (.pass rfl rfl (Or.inr hr))) (.unlock rfl rfl)) ?_
    exact .stop rfl rfl hr
  rcases h with rfl | ⟨rfl, rfl⟩
  · cases wx with
    | test =>
      simp only [wstep] at hs
      cases hn : sx.needs with
      | false =>
        rw [hn] at hs; simp at hs
        obtain ⟨rfl, rfl⟩ := hs
        exact ⟨⟨sx, .out, .test, .out⟩, .refl, rfl, rfl, rfl, Or.inr ⟨rfl, rfl⟩⟩
      | true =>
        rw [hn] at hs; simp at hs
        obtain ⟨rfl, rfl⟩ := hs
        refine ⟨⟨sx, .out, .build, .out⟩, ?_, rfl, rfl, rfl, Or.inl rfl⟩
        refine .tail (.tail (.tail (.single (.lock rfl (Or.inl rfl) rfl)) (.pass rfl rfl (Or.inl hn))) (.unlock rfl rfl)) ?_
        exact .go rfl rfl (hf hn)
    | finish =>
      simp only [wstep] at hs
      cases hs
      refine ⟨⟨{ sx with needs := false }, .out, .top, .out⟩, ?_, rfl, rfl, rfl, Or.inl rfl⟩
      refine .tail (.tail (.tail (.single (.lock rfl (Or.inr rfl) rfl)) (.fin rfl rfl)) (.notify rfl rfl)) ?_
      exact .unlockF rfl rfl
    | stopped =>
      simp only [wstep] at hs
      cases hs
      exact ⟨_, .refl, rfl, rfl, rfl, Or.inl rfl⟩
    | top => exact hstep rfl (by simp) (by simp) (by simp)
    | build => exact hstep rfl (by simp) (by simp) (by simp)
    | search t => exact hstep rfl (by simp) (by simp) (by simp)
    | merge t i j => exact hstep rfl (by simp) (by simp) (by simp)
    | store t i => exact hstep rfl (by simp) (by simp) (by simp)
  · simp only [wstep] at hs
    cases hr : sx.run with
    | true =>
      rw [hr] at hs; simp at hs
      obtain ⟨rfl, rfl⟩ := hs
      exact ⟨_, .refl, rfl, rfl, rfl, Or.inl rfl⟩
    | false =>
      rw [hr] at hs; simp at hs
      obtain ⟨rfl, rfl⟩ := hs
      exact ⟨_, hstop hr, rfl, rfl, rfl, Or.inl rfl⟩

theorem Same.caller {α : Type} {S : Sizing} {sp : Bool} {s s' : BG K} {w : WPC K.T} {x : FS K} {p : FProg K α} {q : BProg K α}
    (h : Same s w x) (hs : CStep p.erase s q s') : ∃ p' x', FExec S sp p x p' x' ∧ q = p'.erase ∧ Same s' w x' := by
  obtain ⟨sx, cm, wx, wm⟩ := x
  obtain ⟨rfl, rfl, rfl, h⟩ := h
  simp only at h hs
  cases p with
  | ret a => cases hs
  | act acc f k =>
    simp only [FProg.erase] at hs
    cases hs with
    | @act _ _ _ _ _ _ b hf => exact ⟨k b, ⟨s', .out, wx, .out⟩, .caller .start (.act rfl hf), rfl, rfl, rfl, rfl, h⟩
  | lockWait k =>
    simp only [FProg.erase] at hs
    cases hs with
    | pass hc =>
      refine ⟨k, ⟨s', .out, wx, .out⟩, ?_, rfl, rfl, rfl, rfl, h⟩
      refine .caller (.caller (.caller .start (.lockW rfl rfl)) (.pass rfl (by simpa using hc))) ?_
      exact .unlock rfl
  | lockSet b k =>
    simp only [FProg.erase] at hs
    cases hs with
    | act hf =>
      cases hf
      refine ⟨k, ⟨setFlag b sx, .out, wx, .out⟩, ?_, rfl, rfl, rfl, rfl, h⟩
      refine .caller (.caller (.caller (.caller .start (.lockS rfl rfl)) (.set rfl)) (.notify rfl)) ?_
      exact .unlock rfl

theorem BG.FExec.ofWorker {α : Type} {S : Sizing} {sp : Bool} {p : FProg K α} {x x' : FS K}
    (h : Relation.ReflTransGen (FW S sp) x x') : FExec S sp p x p x' := by
  induction h with
  | refl => exact .start
  | tail _ hs ih => exact .worker ih hs

theorem Same.exec {S : Sizing} {n : Nat} {ops : List Op} {x : FS K} (hr : FReach K S n ops x) {o : Op} {s s' : BG K}
    {w w' : WPC K.T} {q : BProg K Unit} (h : Same s w x) (hx : Exec (BG.worker K S) (call true S o) s w q s' w') :
    ∃ p x', FExec S true (fcall S o) x p x' ∧ q = p.erase ∧ Same s' w' x' := by
  induction hx with
  | start => exact ⟨_, _, .start, (fcall_erase S o).symm, h⟩
  | caller _ hs ih =>
    obtain ⟨p, x', h1, rfl, h3⟩ := ih
    obtain ⟨p', x'', h4, h5, h6⟩ := h3.caller (S := S) (sp := true) hs
    exact ⟨p', x'', h1.trans h4, h5, h6⟩
  | worker _ hs ih =>
    obtain ⟨p, x', h1, h2, h3⟩ := ih
    have hf := (Legit.inCall hr (Or.inl ⟨o, rfl⟩) h1).2.2.2.flags
    rw [h3.1] at hf
    obtain ⟨x'', h4, h5⟩ := h3.worker (sp := true) hf hs
    exact ⟨p, x'', h1.trans (.ofWorker h4), h2, h5⟩

/-- C64: and conversely, whatever the model of `Bg` does is done by the step-by-step model: its witnesses are real. -/
theorem C64_complete {S : Sizing} {n : Nat} {ops : List Op} {s : BG K} {w : WPC K.T} (h : Reach true K S n ops s w) :
    ∃ x, FReach K S n ops x ∧ Same s w x := by
  induction h with
  | start hn => exact ⟨_, .start hn, rfl, rfl, rfl, Or.inl rfl⟩
  | work _ hs ih =>
    obtain ⟨x, h1, h2⟩ := ih
    obtain ⟨x', h3, h4⟩ := h2.worker (sp := true) (fun _ => h2.1 ▸ h1.refine.1.run) hs
    refine ⟨x', ?_, h4⟩
    clear h4
    induction h3 with
    | refl => exact h1
    | tail _ hs ih => exact .work ih hs
  | call _ hx ih =>
    obtain ⟨x, h1, h2⟩ := ih
    obtain ⟨p, x', h3, h4, h5⟩ := h2.exec h1 hx
    refine ⟨x', ?_, h5⟩
    cases p with
    | ret a => exact .call h1 h3 h5.2.1
    | act acc f k => cases h4
    | lockWait k => cases h4
    | lockSet b k => cases h4

/-! ## No lost wake-up, no deadlock -/

/-- C64: at every moment of every call and of the destructor, on every history and schedule (including spurious wake-ups): the two
threads are never in a locked section together; a user thread asleep on the condition variable has a merge to wait for, or the
worker is about to notify it; a worker asleep has nothing to do, or the user thread is about to notify it; they are never
both asleep. -/
theorem C64_no_lost_wakeup {S : Sizing} {n : Nat} {ops : List Op} {x : FS K} (hr : FReach K S n ops x) {p p' : FProg K Unit}
    (hp : Legit S p) {x' : FS K} (hx : FExec S true p x p' x') :
    ¬ (x'.cm.holds = true ∧ x'.wm.holds = true) ∧
    (x'.cm = .asleep → x'.s.needs = true ∨ x'.wm = .changed) ∧
    (x'.wm = .asleep → (x'.s.needs = false ∧ x'.s.run = true) ∨ x'.cm = .changed) ∧
    ¬ (x'.cm = .asleep ∧ x'.wm = .asleep) := by
  obtain ⟨h, _⟩ := Legit.inCall hr hp hx
  refine ⟨h.excl, h.user, h.work, ?_⟩
  rintro ⟨h1, h2⟩
  rcases h.user h1 with g | g
  · rcases h.work h2 with g' | g'
    · rw [g'.1] at g; cases g
    · rw [h1] at g'; cases g'
  · rw [h2] at g; cases g

theorem InCall.step {S : Sizing} {sp : Bool} {p : FProg K Unit} {x : FS K} (h : InCall p x) {b : FProg K Unit × FS K}
    (hb : FStep S sp (p, x) b) : InCall b.1 b.2 := by
  obtain ⟨h1, h2, h3, h4⟩ := h
  rcases hb with hb | ⟨hp, hb⟩
  · obtain ⟨g1, g2, g3⟩ := h1.caller h2 h3 hb
    exact ⟨g1, g2, g3, h4.caller h3 hb⟩
  · rw [hp]
    obtain ⟨g1, g2⟩ := h1.worker hb
    exact ⟨g1, g2 _ h2, h3, h4.worker hb⟩

/-- C64: on every history – deletions included – and from every moment of a call or of the destructor, every schedule leads after
finitely many steps, without spurious wake-ups, to the return of the call, unless a stretch of code outside the
sections fails (in the user thread, or – the "collection too big" exception – in the worker). -/
theorem C64_calls_end {S : Sizing} {n : Nat} {ops : List Op} {x : FS K} (hr : FReach K S n ops x) {p p' : FProg K Unit}
    (hp : Legit S p) {x' : FS K} (hx : FExec S true p x p' x') :
    Inev S (fun p x => WBad S x ∨ (x.cm = .out ∧ WRest x ∧ (p = .ret () ∨ CBad p.erase x.s))) p' x' := by
  refine Inev.of (I := InCall) (fun p x h => h.1) (fun p x b h hb => h.step hb) ?_ (Legit.inCall hr hp hx)
  intro p x h hs
  rcases h.1.stuck h.2.1 h.2.2.2 hs with h | ⟨h1, h2, ⟨a, h3⟩ | h3⟩
  · exact Or.inl h
  · exact Or.inr ⟨h1, h2, Or.inl h3⟩
  · exact Or.inr ⟨h1, h2, Or.inr h3⟩

/-- C64: an infinite schedule has infinitely many spurious wake-ups. -/
theorem C64_infinite {S : Sizing} {n : Nat} {ops : List Op} {x : FS K} (hr : FReach K S n ops x) {p : FProg K Unit}
    (hp : Legit S p) (f : Nat → FProg K Unit × FS K) (h0 : f 0 = (p, x)) (hf : ∀ i, FStep S true (f i) (f (i + 1))) (N : Nat) :
    ∃ i, N ≤ i ∧ Spurious (f i) (f (i + 1)) := by
  have hin : ∀ i, InCall (f i).1 (f i).2 := by
    intro i
    induction i with
    | zero => rw [h0]; exact Legit.inCall hr hp .start
    | succ i ih => exact ih.step (hf i)
  by_contra hno
  have hno : ∀ i, N ≤ i → FStep S false (f i) (f (i + 1)) := by
    intro i hi
    rcases (hf i).split with h | h
    · exact h
    · exact absurd ⟨i, hi, h⟩ hno
  have : ∀ a : FProg K Unit × FS K, ∀ i, N ≤ i → f i = a → False := by
    intro a
    induction a using (fstep_wf S).induction with
    | _ a ih =>
      rintro i hi rfl
      exact ih (f (i + 1)) ⟨(hin i).1, hno i hi⟩ (i + 1) (by omega) rfl
  exact this _ N (Nat.le_refl _) rfl

/-- C64: if only insertions are made, every `add_edge` returns: from every moment of the call, on every schedule without further
spurious wake-ups, no fairness assumed.  No step fails and no data race occurs on the way. -/
theorem C64_insertions (hK : K.Lawful) {S : Sizing} (hT : S.Top) {n : Nat} (h2 : 2 ≤ n) {es : List Edge}
    (he : ∀ e ∈ es, InRange n e) {x : FS K} (hr : FReach K S n (inserts es) x) {e : Edge} (hi : InRange n e)
    {p : FProg K Unit} {x' : FS K} (hx : FExec S true (faddEdge S e) x p x') :
    (¬ CBad p.erase x'.s ∧ ¬ WBad S x' ∧ ¬ Race (worker K S) p.erase x'.pc) ∧
    Inev S (fun p x => p = .ret () ∧ x.cm = .out ∧ WRest x) p x' := by
  have key : ∀ (p : FProg K Unit) (x' : FS K), FExec S true (faddEdge S e) x p x' →
      ¬ CBad p.erase x'.s ∧ ¬ WBad S x' ∧ ¬ Race (worker K S) p.erase x'.pc := by
    intro p x' hx
    obtain ⟨g1, ⟨r, g2⟩, g3, _⟩ := C56_insertions hK hT true h2 he (C64_refines hr) hi (C64_refines_calls (o := .add e) hr hx)
    refine ⟨g1, ?_, g3⟩
    intro hb
    rw [FS.pc_of (Or.inr (by simp [hb.1]))] at g2
    exact hb.2 r g2
  refine ⟨key p x' hx, ?_⟩
  refine Inev.of (I := fun p x' => FExec S true (faddEdge S e) x p x')
    (fun p x h => (Legit.inCall hr (Or.inl ⟨.add e, rfl⟩) h).1) (fun p x b h hb => h.step hb) ?_ hx
  intro p x' hx hs
  obtain ⟨g1, g2, g3, g4⟩ := Legit.inCall hr (Or.inl ⟨.add e, rfl⟩) hx
  obtain ⟨k1, k2, _⟩ := key p x' hx
  rcases g1.stuck g2 g4 hs with h | ⟨h1, h2, ⟨a, h3⟩ | h3⟩
  · exact absurd h k2
  · exact ⟨h3, h1, h2⟩
  · exact absurd h3 k1

/-- With the thresholds of the code. -/
theorem C64_insertions_real (hK : K.Lawful) {n : Nat} (h2 : 2 ≤ n) {es : List Edge}
    (he : ∀ e ∈ es, InRange n e) {x : FS K} (hr : FReach K realSizing n (inserts es) x) {e : Edge} (hi : InRange n e) :
    Inev realSizing (fun p x => p = .ret () ∧ x.cm = .out ∧ WRest x) (faddEdge realSizing e) x :=
  (C64_insertions hK realSizing_top h2 he hr hi .start).2

/-- C64: after insertions only, the destructor returns on every schedule, and the worker's function returns too. -/
theorem C64_destructor (hK : K.Lawful) {S : Sizing} (hT : S.Top) {n : Nat} (h2 : 2 ≤ n) {es : List Edge}
    (he : ∀ e ∈ es, InRange n e) {x : FS K} (hr : FReach K S n (inserts es) x) {p : FProg K Unit} {x' : FS K}
    (hx : FExec S true fdestroy x p x') :
    Inev S (fun p x => p = .ret () ∧ x.cm = .out ∧ x.w = .stopped) p x' := by
  obtain ⟨c, hc⟩ := (C64_refines hr).trackI hK h2 rfl he
  have hst : Stable (worker K S) (fun s w => JJ S c s w ∧ s.needs = false) := by
    intro s w s' w' h hs
    exact ⟨JJ_stable hK S c _ _ _ _ h.1 hs, (wstep_frame hs).2.2.2.2.2.2 h.2⟩
  have hw : ∀ s w, JJ S c s w → ∃ r, wstep S s w = .ok r := fun s w h => J.wok hK hT h hc.tot
  have ho : ∀ s (w : WPC K.T), Over s w → ∃ r, wstep S s w = .ok r := by
    rintro s w ⟨_, _, rfl | rfl | rfl⟩ <;> exact ⟨_, rfl⟩
  have hok : Ok (worker K S) (fun s w => ∃ r, wstep S s w = .ok r) True (BG.destroy : BProg K Unit) (JJ S c)
      (fun _ s w => Over s w) := by
    refine Ok.wait (P' := fun s w => JJ S c s w ∧ s.needs = false) _ (JJ_stable hK S c)
      (fun s w h hn => ⟨h, by simpa using hn⟩) ?_ hw
    refine Ok.modify _ hst (fun _ _ _ => no_conflict_none) (fun _ s w _ => ⟨_, rfl⟩) ?_ ?_ (fun s w h => hw s w h.1) ho
    · intro s w s' h hs
      cases hs
      exact ⟨h.2, rfl, (h.1.stage.idle h.2).1.imp_right Or.inl⟩
    · intro s w s' w' h hs
      exact h.step hs
  obtain ⟨hid, _⟩ := hr.refine
  have hsim : ∀ (p : FProg K Unit) (x' : FS K), FExec S true fdestroy x p x' →
      Exec (worker K S) BG.destroy x.s x.pc p.erase x'.s x'.pc :=
    fun p x' hx => (hx.refine hid.inv (hid.pm _) fdestroy_keeps hid.destroy).2
  refine Inev.of (I := fun p x' => FExec S true fdestroy x p x')
    (fun p x h => (Legit.inCall hr (Or.inr rfl) h).1) (fun p x b h hb => h.step hb) ?_ hx
  intro p x' hx hs
  obtain ⟨g1, g2, g3, g4⟩ := Legit.inCall hr (Or.inr rfl) hx
  rcases g1.stuck g2 g4 hs with h | ⟨h1, h2, ⟨a, h3⟩ | h3⟩
  · obtain ⟨r, hr⟩ := hok.inv _ hc.inv (hsim p x' hx)
    rw [FS.pc_of (Or.inr (by simp [h.1]))] at hr
    exact absurd hr (h.2 r)
  · subst h3
    obtain ⟨_, hrun, _⟩ := hok.post _ hc.inv (hsim _ x' hx)
    rcases h2 with h2 | h2
    · rw [h2.2.2] at hrun; cases hrun
    · exact ⟨rfl, h1, h2.2⟩
  · exact absurd h3 (hok.nobad _ trivial hc.inv (hsim p x' hx))

/-! ## The hypotheses are met -/

/-- Every insertion history is reached, so `C64_insertions` and `C64_destructor` speak about every insertion. -/
example (hK : K.Lawful) {S : Sizing} (hT : S.Top) {n : Nat} (h2 : 2 ≤ n) (es : List Edge) (he : ∀ e ∈ es, InRange n e) :
    ∃ x, FReach K S n (inserts es) x := by
  obtain ⟨s, w, h⟩ := C56_reachable hK hT true h2 es he
  obtain ⟨x, h, _⟩ := C64_complete h
  exact ⟨x, h⟩

/-- The user thread does fall asleep: the destructor is called while a merge is pending. -/
example : ∃ (x x' : FS refK2) (p : FProg refK2 Unit), FReach refK2 realSizing 5 (inserts [(0, 1), (1, 2)]) x ∧
    FExec realSizing true fdestroy x p x' ∧ x'.cm = .asleep := by
  have hx : playTest true hybSizing 5 evHidden (fun s _ => s.needs) = true := by decide +kernel
  obtain ⟨s, w, h1, h2⟩ := playTest_sound (by decide) hx
  obtain ⟨x, h3, rfl, h4, h5, _⟩ := C64_complete h1
  refine ⟨x, _, _, h3, .caller (.caller .start (.lockW h4 (by rw [h5]; rfl))) (.sleep rfl h2), rfl⟩

/-- So does `del_edge`. -/
example : ∃ (x x' : FS refK2) (p : FProg refK2 Unit), FReach refK2 realSizing 5 (inserts [(0, 1), (1, 2)]) x ∧
    FExec realSizing true (fcall realSizing (.del (0, 1))) x p x' ∧ x'.cm = .asleep := by
  have hx : playTest true hybSizing 5 evHidden (fun s _ => s.needs &&
      (match eraseBuf (0, 1) s with | .ok (s', b) => !b && s'.needs | _ => false)) = true := by decide +kernel
  obtain ⟨s, w, h1, h2⟩ := playTest_sound (by decide) hx
  obtain ⟨x, h3, rfl, h4, h5, _⟩ := C64_complete h1
  rw [Bool.and_eq_true] at h2
  obtain ⟨_, h2⟩ := h2
  split at h2
  · rename_i s' b hb
    rw [Bool.and_eq_true] at h2
    obtain ⟨h6, h7⟩ := h2
    have hb' : b = false := by simpa using h6
    subst hb'
    exact ⟨x, _, _, h3, .caller (.caller (.caller .start (.act h4 hb)) (.lockW h4 (by rw [h5]; rfl))) (.sleep rfl h7), rfl⟩
  · cases h2

/-- The worker falls asleep when there is nothing to do. -/
example {S : Sizing} {n : Nat} (h2 : 2 ≤ n) : ∃ x, FReach K S n [] x ∧ x.wm = .asleep := by
  refine ⟨_, .work (.work (.work (.start (by omega)) (.step rfl (by simp) (by simp) (by simp) (s' := init K true S n)
    (w' := .test) rfl)) (.lock rfl (Or.inl rfl) rfl)) (.sleep rfl rfl rfl rfl), rfl⟩

end DK2
