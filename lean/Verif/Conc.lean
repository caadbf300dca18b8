import Verif.Res
import Mathlib.Tactic.Choose
/-!
# Two threads sharing a state

A caller thread runs a program `Prog`; a worker thread is a step function on its own program counter.
Every interleaving of their steps is an execution.  A step is either one access to an atomic flag or a
stretch of code between two such accesses; the latter carries the set of plain (non-atomic) memory
locations it touches, so that an overlap of two conflicting stretches – a data race – can be stated.
-/

namespace DK2

/-- The plain memory locations touched by a stretch of code. -/
structure Acc (L : Type) where
  rd : List L
  wr : List L

/-- Touching nothing but atomic flags. -/
def Acc.none {L : Type} : Acc L := ⟨[], []⟩

/-- Two accesses conflict: a location is written by one and touched by the other. -/
def Acc.Conflict {L : Type} (a b : Acc L) : Prop :=
  (∃ l, l ∈ a.wr ∧ (l ∈ b.rd ∨ l ∈ b.wr)) ∨ ∃ l, l ∈ a.rd ∧ l ∈ b.wr

/-- Program of the caller, returning `α`.
* `act acc f k` – run `f`, which touches `acc`, then continue with its result;
* `wait c k`    – spin (or block on the condition variable) until `c` holds. -/
inductive Prog (σ L α : Type) : Type 1 where
  | ret (a : α)
  | act {β : Type} (acc : Acc L) (f : σ → Res (σ × β)) (k : β → Prog σ L α)
  | wait (c : σ → Bool) (k : Prog σ L α)

namespace Prog

variable {σ ω L α β : Type}

/-- Sequencing. -/
def bind : Prog σ L α → (α → Prog σ L β) → Prog σ L β
  | ret a, f => f a
  | act acc g k, f => act acc g (fun b => (k b).bind f)
  | wait c k, f => wait c (k.bind f)

/-- A program that reads the state. -/
def read (acc : Acc L) (f : σ → Res β) : Prog σ L β :=
  act acc (fun s => f s >>= fun b => .ok (s, b)) ret

/-- A program that changes the state. -/
def modify (acc : Acc L) (f : σ → Res σ) : Prog σ L Unit :=
  act acc (fun s => f s >>= fun s' => .ok (s', ())) ret

end Prog

/-- The worker thread: one step, and the locations its next step touches. -/
structure Worker (σ ω L : Type) where
  step : σ → ω → Res (σ × ω)
  acc : ω → Acc L

/-- One step of the caller. -/
inductive CStep {σ L α : Type} : Prog σ L α → σ → Prog σ L α → σ → Prop where
  | act {β : Type} {acc : Acc L} {f : σ → Res (σ × β)} {k : β → Prog σ L α} {s s' : σ} {b : β} :
      f s = .ok (s', b) → CStep (.act acc f k) s (k b) s'
  | pass {c : σ → Bool} {k : Prog σ L α} {s : σ} : c s = true → CStep (.wait c k) s k s

/-- Every execution of a program: any interleaving of caller and worker steps. -/
inductive Exec {σ ω L α : Type} (W : Worker σ ω L) (p : Prog σ L α) (s : σ) (w : ω) :
    Prog σ L α → σ → ω → Prop where
  | start : Exec W p s w p s w
  | caller {p' : Prog σ L α} {s' : σ} {w' : ω} {p'' : Prog σ L α} {s'' : σ} :
      Exec W p s w p' s' w' → CStep p' s' p'' s'' → Exec W p s w p'' s'' w'
  | worker {p' : Prog σ L α} {s' : σ} {w' : ω} {s'' : σ} {w'' : ω} :
      Exec W p s w p' s' w' → W.step s' w' = .ok (s'', w'') → Exec W p s w p' s'' w''

/-- The caller's next step ends abnormally. -/
def CBad {σ L α : Type} : Prog σ L α → σ → Prop
  | .ret _, _ => False
  | .act _ f _, s => ∀ r, f s ≠ .ok r
  | .wait _ _, _ => False

/-- The caller's next stretch and the worker's next stretch conflict: a data race. -/
def Race {σ ω L α : Type} (W : Worker σ ω L) : Prog σ L α → ω → Prop
  | .act acc _ _, w => acc.Conflict (W.acc w)
  | _, _ => False

/-! ## Proof rule -/

/-- Proves that an assertion implies the invariant. -/
syntax "inv_tac" : tactic

section hoare
variable {σ ω L α β : Type} (W : Worker σ ω L)

/-- `P` survives every worker step. -/
def Stable (P : σ → ω → Prop) : Prop :=
  ∀ s w s' w', P s w → W.step s w = .ok (s', w') → P s' w'

/-- `P` survives every worker step and implies `I`. -/
def St (I P : σ → ω → Prop) : Prop := Stable W P ∧ ∀ s w, P s w → I s w

/-- From every state satisfying `P`, every execution of the program is race-free, satisfies `I` at every
point, (if `tot`) no step of the caller fails, and when it returns `Q` holds. -/
def Ok (I : σ → ω → Prop) (tot : Prop) : Prog σ L α → (σ → ω → Prop) → (α → σ → ω → Prop) → Prop
  | .ret a, P, Q => St W I P ∧ ∀ s w, P s w → Q a s w
  | .act acc f k, P, Q => St W I P ∧ (∀ s w, P s w → ¬ acc.Conflict (W.acc w)) ∧
      (tot → ∀ s w, P s w → ∃ r, f s = .ok r) ∧
      ∃ P' : _ → σ → ω → Prop, (∀ s w s' b, P s w → f s = .ok (s', b) → P' b s' w) ∧
        ∀ b, Ok I tot (k b) (P' b) Q
  | .wait c k, P, Q => St W I P ∧
      ∃ P' : σ → ω → Prop, (∀ s w, P s w → c s = true → P' s w) ∧ Ok I tot k P' Q

theorem Ok.stable {I : σ → ω → Prop} {tot : Prop} {p : Prog σ L α} {P Q} (h : Ok W I tot p P Q) : St W I P := by
  cases p with
  | ret a => exact h.1
  | act acc f k => exact h.1
  | wait c k => exact h.1

/-- What holds at every point of an execution. -/
theorem Ok.exec {I : σ → ω → Prop} {tot : Prop} {p : Prog σ L α} {P Q} (h : Ok W I tot p P Q) {s : σ} {w : ω}
    (hp : P s w) {p' : Prog σ L α} {s' : σ} {w' : ω} (he : Exec W p s w p' s' w') :
    ∃ P', Ok W I tot p' P' Q ∧ P' s' w' := by
  induction he with
  | start => exact ⟨P, h, hp⟩
  | caller _ hs ih =>
    obtain ⟨P', h1, h2⟩ := ih
    cases hs with
    | act hf =>
      obtain ⟨_, _, _, P'', h3, h4⟩ := h1
      exact ⟨P'' _, h4 _, h3 _ _ _ _ h2 hf⟩
    | pass hc =>
      obtain ⟨_, P'', h3, h4⟩ := h1
      exact ⟨P'', h4, h3 _ _ h2 hc⟩
  | worker _ hs ih =>
    obtain ⟨P', h1, h2⟩ := ih
    exact ⟨P', h1, (Ok.stable W h1).1 _ _ _ _ h2 hs⟩

theorem Ok.post {I : σ → ω → Prop} {tot : Prop} {p : Prog σ L α} {P Q} (h : Ok W I tot p P Q) {s : σ} {w : ω}
    (hp : P s w) {a : α} {s' : σ} {w' : ω} (he : Exec W p s w (.ret a) s' w') : Q a s' w' := by
  obtain ⟨P', h1, h2⟩ := h.exec W hp he
  exact h1.2 _ _ h2

theorem Ok.inv {I : σ → ω → Prop} {tot : Prop} {p : Prog σ L α} {P Q} (h : Ok W I tot p P Q) {s : σ} {w : ω}
    (hp : P s w) {p' : Prog σ L α} {s' : σ} {w' : ω} (he : Exec W p s w p' s' w') : I s' w' := by
  obtain ⟨P', h1, h2⟩ := h.exec W hp he
  exact (Ok.stable W h1).2 _ _ h2

theorem Ok.norace {I : σ → ω → Prop} {tot : Prop} {p : Prog σ L α} {P Q} (h : Ok W I tot p P Q) {s : σ} {w : ω}
    (hp : P s w) {p' : Prog σ L α} {s' : σ} {w' : ω} (he : Exec W p s w p' s' w') :
    ¬ Race W p' w' := by
  obtain ⟨P', h1, h2⟩ := h.exec W hp he
  cases p' with
  | ret a => exact fun h => h
  | act acc f k => exact h1.2.1 _ _ h2
  | wait c k => exact fun h => h

theorem Ok.nobad {I : σ → ω → Prop} {tot : Prop} {p : Prog σ L α} {P Q} (h : Ok W I tot p P Q) (ht : tot) {s : σ} {w : ω}
    (hp : P s w) {p' : Prog σ L α} {s' : σ} {w' : ω} (he : Exec W p s w p' s' w') :
    ¬ CBad p' s' := by
  obtain ⟨P', h1, h2⟩ := h.exec W hp he
  cases p' with
  | ret a => exact fun h => h
  | act acc f k =>
    obtain ⟨r, hr⟩ := h1.2.2.1 ht _ _ h2
    exact fun hb => hb r hr
  | wait c k => exact fun h => h

theorem Ok.conseq {I : σ → ω → Prop} {tot : Prop} {p : Prog σ L α} {P : σ → ω → Prop} {Q Q' : α → σ → ω → Prop}
    (h : Ok W I tot p P Q) (hq : ∀ a s w, Q a s w → Q' a s w) : Ok W I tot p P Q' := by
  induction p generalizing P with
  | ret a => exact ⟨h.1, fun s w hp => hq _ _ _ (h.2 s w hp)⟩
  | act acc f k ih =>
    obtain ⟨h1, h2, h3, P', h4, h5⟩ := h
    exact ⟨h1, h2, h3, P', h4, fun b => ih b (h5 b)⟩
  | wait c k ih =>
    obtain ⟨h1, P', h2, h3⟩ := h
    exact ⟨h1, P', h2, ih h3⟩

/-- Strengthening the precondition (which must itself be stable). -/
theorem Ok.pre {I : σ → ω → Prop} {tot : Prop} {p : Prog σ L α} {P P' : σ → ω → Prop} {Q : α → σ → ω → Prop}
    (h : Ok W I tot p P Q) (hs : Stable W P') (hp : ∀ s w, P' s w → P s w) : Ok W I tot p P' Q := by
  have hs : St W I P' := ⟨hs, fun s w h' => (Ok.stable W h).2 _ _ (hp s w h')⟩
  cases p with
  | ret a => exact ⟨hs, fun s w h' => h.2 s w (hp s w h')⟩
  | act acc f k =>
    obtain ⟨h1, h2, h3, P'', h4, h5⟩ := h
    exact ⟨hs, fun s w h' => h2 s w (hp s w h'), fun ht s w h' => h3 ht s w (hp s w h'), P'',
      fun s w s' b h' => h4 s w s' b (hp s w h'), h5⟩
  | wait c k =>
    obtain ⟨h1, P'', h2, h3⟩ := h
    exact ⟨hs, P'', fun s w h' => h2 s w (hp s w h'), h3⟩

/-- Sequencing; the intermediate assertion must be stable. -/
theorem Ok.bind {I : σ → ω → Prop} {tot : Prop} {p : Prog σ L α} {f : α → Prog σ L β} {P : σ → ω → Prop}
    {R : α → σ → ω → Prop} {Q : β → σ → ω → Prop}
    (h : Ok W I tot p P R) (hf : ∀ a, Ok W I tot (f a) (R a) Q) : Ok W I tot (p.bind f) P Q := by
  induction p generalizing P with
  | ret a => exact (hf a).pre W h.1.1 h.2
  | act acc g k ih =>
    obtain ⟨h1, h2, h3, P', h4, h5⟩ := h
    exact ⟨h1, h2, h3, P', h4, fun b => ih b (h5 b)⟩
  | wait c k ih =>
    obtain ⟨h1, P', h2, h3⟩ := h
    exact ⟨h1, P', h2, ih h3⟩

theorem Ok.read {I : σ → ω → Prop} {tot : Prop} {acc : Acc L} {f : σ → Res β} {P : σ → ω → Prop} {Q : β → σ → ω → Prop}
    (hs : Stable W P) (hr : ∀ s w, P s w → ¬ acc.Conflict (W.acc w))
    (ht : tot → ∀ s w, P s w → ∃ b, f s = .ok b)
    (hq : ∀ s w b, P s w → f s = .ok b → Q b s w) (hqs : ∀ b, Stable W (Q b))
    (hi : ∀ s w, P s w → I s w := by inv_tac) (hqi : ∀ b s w, Q b s w → I s w := by inv_tac) :
    Ok W I tot (Prog.read acc f) P Q := by
  refine ⟨⟨hs, hi⟩, hr, ?_, Q, ?_, fun b => ⟨⟨hqs b, hqi b⟩, fun _ _ h => h⟩⟩
  · intro t s w hp
    obtain ⟨b, hb⟩ := ht t s w hp
    exact ⟨(s, b), by simp [hb]⟩
  · intro s w s' b hp hf
    rw [Res.bind_eq_ok] at hf
    obtain ⟨b', h1, h2⟩ := hf
    cases h2
    exact hq s w _ hp h1

theorem Ok.act {I : σ → ω → Prop} {tot : Prop} {acc : Acc L} {f : σ → Res (σ × β)} {P : σ → ω → Prop} {Q : β → σ → ω → Prop}
    (hs : Stable W P) (hr : ∀ s w, P s w → ¬ acc.Conflict (W.acc w))
    (ht : tot → ∀ s w, P s w → ∃ r, f s = .ok r)
    (hq : ∀ s w s' b, P s w → f s = .ok (s', b) → Q b s' w) (hqs : ∀ b, Stable W (Q b))
    (hi : ∀ s w, P s w → I s w := by inv_tac) (hqi : ∀ b s w, Q b s w → I s w := by inv_tac) :
    Ok W I tot (Prog.act acc f .ret) P Q :=
  ⟨⟨hs, hi⟩, hr, ht, Q, hq, fun b => ⟨⟨hqs b, hqi b⟩, fun _ _ h => h⟩⟩

theorem Ok.modify {I : σ → ω → Prop} {tot : Prop} {acc : Acc L} {f : σ → Res σ} {P : σ → ω → Prop}
    {Q : Unit → σ → ω → Prop}
    (hs : Stable W P) (hr : ∀ s w, P s w → ¬ acc.Conflict (W.acc w))
    (ht : tot → ∀ s w, P s w → ∃ s', f s = .ok s')
    (hq : ∀ s w s', P s w → f s = .ok s' → Q () s' w) (hqs : Stable W (Q ()))
    (hi : ∀ s w, P s w → I s w := by inv_tac) (hqi : ∀ s w, Q () s w → I s w := by inv_tac) :
    Ok W I tot (Prog.modify acc f) P Q := by
  refine ⟨⟨hs, hi⟩, hr, ?_, Q, ?_, fun b => ⟨⟨hqs, hqi⟩, fun _ _ h => h⟩⟩
  · intro t s w hp
    obtain ⟨b, hb⟩ := ht t s w hp
    exact ⟨(b, ()), by simp [hb]⟩
  · intro s w s' b hp hf
    rw [Res.bind_eq_ok] at hf
    obtain ⟨b', h1, h2⟩ := hf
    cases h2
    exact hq s w _ hp h1

theorem Ok.wait {I : σ → ω → Prop} {tot : Prop} {c : σ → Bool} {k : Prog σ L α} {P P' : σ → ω → Prop} {Q : α → σ → ω → Prop}
    (hs : Stable W P) (hp : ∀ s w, P s w → c s = true → P' s w) (hk : Ok W I tot k P' Q)
    (hi : ∀ s w, P s w → I s w := by inv_tac) :
    Ok W I tot (.wait c k) P Q := ⟨⟨hs, hi⟩, P', hp, hk⟩

theorem Ok.ret {I : σ → ω → Prop} {tot : Prop} {a : α} {P : σ → ω → Prop} {Q : α → σ → ω → Prop}
    (hs : Stable W P) (hp : ∀ s w, P s w → Q a s w) (hi : ∀ s w, P s w → I s w := by inv_tac) :
    Ok W I tot (Prog.ret (L := L) a) P Q := ⟨⟨hs, hi⟩, hp⟩

/-- An impossible precondition. -/
theorem Ok.absurd {I : σ → ω → Prop} {tot : Prop} {p : Prog σ L α} {P : σ → ω → Prop} {Q : α → σ → ω → Prop}
    (h : ∀ s w, ¬ P s w) : Ok W I tot p P Q := by
  induction p generalizing P with
  | ret a => exact ⟨⟨fun s w _ _ hp => (h s w hp).elim, fun s w hp => (h s w hp).elim⟩, fun s w hp => (h s w hp).elim⟩
  | act acc f k ih =>
    exact ⟨⟨fun s w _ _ hp => (h s w hp).elim, fun s w hp => (h s w hp).elim⟩, fun s w hp => (h s w hp).elim, fun _ s w hp => (h s w hp).elim,
      fun _ _ _ => False, fun s w _ _ hp => (h s w hp).elim, fun b => ih b (fun _ _ hh => hh)⟩
  | wait c k ih =>
    exact ⟨⟨fun s w _ _ hp => (h s w hp).elim, fun s w hp => (h s w hp).elim⟩, fun _ _ => False, fun s w hp => (h s w hp).elim,
      ih (fun _ _ hh => hh)⟩

/-- A family of preconditions. -/
theorem Ok.exists {I : σ → ω → Prop} {tot : Prop} {ι : Type*} {p : Prog σ L α} {P : ι → σ → ω → Prop} {Q : α → σ → ω → Prop}
    (h : ∀ i, Ok W I tot p (P i) Q) : Ok W I tot p (fun s w => ∃ i, P i s w) Q := by
  induction p generalizing P with
  | ret a =>
    refine ⟨⟨?_, fun s w ⟨i, hi⟩ => (h i).1.2 s w hi⟩, fun s w ⟨i, hi⟩ => (h i).2 s w hi⟩
    rintro s w s' w' ⟨i, hi⟩ hw
    exact ⟨i, (h i).1.1 _ _ _ _ hi hw⟩
  | act acc f k ih =>
    refine ⟨⟨?_, fun s w ⟨i, hi⟩ => (h i).1.2 s w hi⟩, fun s w ⟨i, hi⟩ => (h i).2.1 s w hi, fun t s w ⟨i, hi⟩ => (h i).2.2.1 t s w hi, ?_⟩
    · rintro s w s' w' ⟨i, hi⟩ hw
      exact ⟨i, (h i).1.1 _ _ _ _ hi hw⟩
    · choose P' h1 h2 using fun i => (h i).2.2.2
      refine ⟨fun b s w => ∃ i, P' i b s w, ?_, ?_⟩
      · rintro s w s' b ⟨i, hi⟩ hf; exact ⟨i, h1 i _ _ _ _ hi hf⟩
      · intro b; exact ih b (fun i => h2 i b)
  | wait c k ih =>
    refine ⟨⟨?_, fun s w ⟨i, hi⟩ => (h i).1.2 s w hi⟩, ?_⟩
    · rintro s w s' w' ⟨i, hi⟩ hw
      exact ⟨i, (h i).1.1 _ _ _ _ hi hw⟩
    · choose P' h1 h2 using fun i => (h i).2
      exact ⟨fun s w => ∃ i, P' i s w, fun s w ⟨i, hi⟩ hc => ⟨i, h1 i _ _ hi hc⟩, ih h2⟩

end hoare

/-! ## Concrete schedules -/

section sched
variable {σ ω L α : Type}

/-- A point of an execution. -/
structure Cfg (σ ω L α : Type) : Type 1 where
  p : Prog σ L α
  s : σ
  w : ω

/-- One caller step, computed: `none` if the call has returned, fails or its wait does not pass. -/
def cstep : Prog σ L α → σ → Option (Prog σ L α × σ)
  | .ret _, _ => none
  | .act _ f k, s => match f s with
    | .ok (s', b) => some (k b, s')
    | _ => none
  | .wait c k, s => if c s then some (k, s) else none

theorem cstep_sound {p p' : Prog σ L α} {s s' : σ} (h : cstep p s = some (p', s')) :
    CStep p s p' s' := by
  cases p with
  | ret a => simp [cstep] at h
  | act acc f k =>
    simp only [cstep] at h
    split at h
    · rename_i h1; cases h; exact .act h1
    · cases h
  | wait c k =>
    simp only [cstep] at h
    split at h
    · cases h; exact .pass ‹_›
    · cases h

/-- Follow a schedule (`true`: the caller moves, `false`: the worker moves). -/
def sched (W : Worker σ ω L) : List Bool → Cfg σ ω L α → Option (Cfg σ ω L α)
  | [], c => some c
  | true :: l, c => match cstep c.p c.s with
    | some (p, s) => sched W l ⟨p, s, c.w⟩
    | none => none
  | false :: l, c => match W.step c.s c.w with
    | .ok (s, w) => sched W l ⟨c.p, s, w⟩
    | _ => none

theorem Exec.trans {W : Worker σ ω L} {p p' p'' : Prog σ L α} {s s' s'' : σ} {w w' w'' : ω}
    (h : Exec W p s w p' s' w') (h' : Exec W p' s' w' p'' s'' w'') : Exec W p s w p'' s'' w'' := by
  induction h' with
  | start => exact h
  | caller _ hs ih => exact .caller ih hs
  | worker _ hs ih => exact .worker ih hs

theorem sched_sound {W : Worker σ ω L} : ∀ (l : List Bool) (c c' : Cfg σ ω L α),
    sched W l c = some c' → Exec W c.p c.s c.w c'.p c'.s c'.w := by
  intro l
  induction l with
  | nil => intro c c' h; simp only [sched, Option.some.injEq] at h; subst h; exact .start
  | cons b l ih =>
    intro c c' h
    cases b with
    | true =>
      simp only [sched] at h
      split at h
      · rename_i h1
        exact Exec.trans (.caller .start (cstep_sound h1)) (ih _ _ h)
      · cases h
    | false =>
      simp only [sched] at h
      split at h
      · rename_i h1
        exact Exec.trans (.worker .start h1) (ih _ _ h)
      · cases h

/-- Follow a schedule to the return of the call. -/
def schedRet (W : Worker σ ω L) (l : List Bool) (p : Prog σ L α) (s : σ) (w : ω) : Option (α × σ × ω) :=
  match sched W l ⟨p, s, w⟩ with
  | some ⟨.ret a, s', w'⟩ => some (a, s', w')
  | _ => none

theorem schedRet_sound {W : Worker σ ω L} {l : List Bool} {p : Prog σ L α} {s s' : σ} {w w' : ω} {a : α}
    (h : schedRet W l p s w = some (a, s', w')) : Exec W p s w (.ret a) s' w' := by
  unfold schedRet at h
  split at h
  · rename_i h1; cases h; exact sched_sound _ _ _ h1
  · cases h

/-- Follow a schedule to a point of the call and test it. -/
def schedTest (W : Worker σ ω L) (l : List Bool) (p : Prog σ L α) (s : σ) (w : ω)
    (f : Prog σ L α → σ → ω → Bool) : Bool :=
  match sched W l ⟨p, s, w⟩ with
  | some ⟨p', s', w'⟩ => f p' s' w'
  | none => false

theorem schedTest_sound {W : Worker σ ω L} {l : List Bool} {p : Prog σ L α} {s : σ} {w : ω}
    {f : Prog σ L α → σ → ω → Bool} (h : schedTest W l p s w f = true) :
    ∃ p' s' w', Exec W p s w p' s' w' ∧ f p' s' w' = true := by
  unfold schedTest at h
  split at h
  · rename_i h1; exact ⟨_, _, _, sched_sound _ _ _ h1, h⟩
  · cases h

end sched

end DK2
