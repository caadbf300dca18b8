import Verif.BgMore
/-!
# The mutex and the condition variable of `DKtree_background_wait`

`Bg` treats the locked sections of `DKtree_background_wait` as single steps and blocking on `cv_w` as a busy wait.  Here they are
modelled step by step: acquiring `m_mutex`, testing the flags, going to sleep on `cv_w`, being woken, changing a flag,
`notify_all`, releasing the mutex.  Line numbers are those of `DKtree_background_wait.hpp`.  One object, one user thread.
-/

namespace DK2
namespace BG
variable {K : K2Impl}

/-- Where a thread is in a locked section.
* `out` – not in a section
* `inside` – holds the mutex, about to test or change the flags
* `changed` – holds the mutex, has changed a flag, about to call `notify_all`
* `closing` – holds the mutex, about to release it
* `asleep` – blocked in `cv_w.wait` (44, 127, 183, 242), the mutex released
* `awake` – woken, about to acquire the mutex again
* `checking` – the worker, after the section, about to read `run_w` (47) -/
inductive Mic where
  | out | inside | changed | closing | asleep | awake | checking
  deriving DecidableEq, Repr

/-- The thread holds the mutex. -/
def Mic.holds : Mic → Bool
  | .inside => true
  | .changed => true
  | .closing => true
  | _ => false

/-- The effect of `notify_all` on a thread. -/
def Mic.wake : Mic → Mic
  | .asleep => .awake
  | m => m

/-- Programs of the user thread.
* `act` – as in `Prog`
* `lockWait k` – `{ scoped_lock lk(m_mutex); while (needs_work_w) cv_w.wait(lk); }` (124-129, 179-185, 239-244)
* `lockSet b k` – `{ lock_guard lk(m_mutex); …; cv_w.notify_all(); }`: `needs_work_w = true` (204-209) for `b = true`,
  `run_w = false` (130-134) for `b = false` -/
inductive FProg (K : K2Impl) (α : Type) : Type 1 where
  | ret (a : α)
  | act {β : Type} (acc : Acc BLoc) (f : BG K → Res (BG K × β)) (k : β → FProg K α)
  | lockWait (k : FProg K α)
  | lockSet (b : Bool) (k : FProg K α)

/-- The flag change of a `lockSet`. -/
def setFlag (b : Bool) (s : BG K) : BG K := if b then { s with needs := true } else { s with run := false }

namespace FProg

/-- Sequencing. -/
def bind {α β : Type} : FProg K α → (α → FProg K β) → FProg K β
  | ret a, f => f a
  | act acc g k, f => act acc g (fun b => (k b).bind f)
  | lockWait k, f => lockWait (k.bind f)
  | lockSet b k, f => lockSet b (k.bind f)

/-- The same program as `Bg` sees it: a section is one step. -/
def erase {α : Type} : FProg K α → BProg K α
  | ret a => .ret a
  | act acc g k => .act acc g (fun b => (k b).erase)
  | lockWait k => .wait (fun s => !s.needs) k.erase
  | lockSet b k => .act .none (fun s => (.ok (setFlag b s) : Res (BG K)) >>= fun s' => .ok (s', ())) (fun _ => k.erase)

/-- A program without sections. -/
def ofProg {α : Type} : BProg K α → FProg K α
  | .ret a => ret a
  | .act acc g k => act acc g (fun b => ofProg (k b))
  | .wait _ k => lockWait (ofProg k)

end FProg

open FProg

/-- Lines 186-212. -/
def fflush (e : Edge) : FProg K Unit :=
  (ofProg (Prog.modify ⟨[.c0, .levels, .maxR, .nTotal], [.conv, .maxSb, .maxRb, .tmpEdge, .bks]⟩ (prepare e))).bind fun _ =>
    .lockSet true (ofProg (Prog.modify ⟨[.c0, .nTotal], [.c0, .nTotal]⟩ cleanup))

/-- `add_edge(x,y)` (168-213). -/
def faddEdge (S : Sizing) (e : Edge) : FProg K Unit :=
  (ofProg (contains e)).bind fun b =>
    if b then .ret ()
    else (ofProg (Prog.read ⟨[.c0, .nTotal], []⟩ (fun s => .ok (s.fits S)))).bind fun f =>
      if f then ofProg (Prog.modify ⟨[.c0, .nTotal], [.c0, .nTotal]⟩ (insert S e)) else .lockWait (fflush e)

/-- `add_edge` on every edge of a sequence (273-280). -/
def faddAll (S : Sizing) : List Edge → FProg K Unit
  | [] => .ret ()
  | e :: es => (faddEdge S e).bind fun _ => faddAll S es

/-- `del_edge(x,y)` (234-283). -/
def fdelEdge (S : Sizing) (e : Edge) : FProg K Unit :=
  (FProg.act ⟨[.c0, .nTotal], [.c0, .nTotal]⟩ (eraseBuf e) .ret).bind fun b =>
    if b then .ret ()
    else .lockWait ((FProg.act ⟨[.levels, .maxR, .nTotal, .c0], [.levels, .maxR, .nTotal]⟩ (eraseLevels S e) .ret).bind
      (faddAll S))

/-- One user call that modifies the graph. -/
def fcall (S : Sizing) : Op → FProg K Unit
  | .add e => faddEdge S e
  | .del e => fdelEdge S e

/-- The destructor (121-135). -/
def fdestroy : FProg K Unit := .lockWait (.lockSet false (.ret ()))

/-- The object, where the user thread is in a section, where the worker is, and where it is in a section.  The mutex is held by the
thread whose `Mic.holds` is true. -/
structure FS (K : K2Impl) where
  s : BG K
  cm : Mic
  w : WPC K.T
  wm : Mic

/-- One step of the user thread; `sp` allows `cv_w.wait` to return without notification. -/
inductive FC {α : Type} (sp : Bool) : FProg K α → FS K → FProg K α → FS K → Prop where
  | act {β : Type} {acc : Acc BLoc} {f : BG K → Res (BG K × β)} {k : β → FProg K α} {x : FS K} {s' : BG K} {b : β} :
      x.cm = .out → f x.s = .ok (s', b) → FC sp (.act acc f k) x (k b) { x with s := s' }
  | lockW {k : FProg K α} {x : FS K} : x.cm = .out → x.wm.holds = false →
      FC sp (.lockWait k) x (.lockWait k) { x with cm := .inside }
  | pass {k : FProg K α} {x : FS K} : x.cm = .inside → x.s.needs = false →
      FC sp (.lockWait k) x k { x with cm := .closing }
  | sleep {k : FProg K α} {x : FS K} : x.cm = .inside → x.s.needs = true →
      FC sp (.lockWait k) x (.lockWait k) { x with cm := .asleep }
  | lockS {b : Bool} {k : FProg K α} {x : FS K} : x.cm = .out → x.wm.holds = false →
      FC sp (.lockSet b k) x (.lockSet b k) { x with cm := .inside }
  | set {b : Bool} {k : FProg K α} {x : FS K} : x.cm = .inside →
      FC sp (.lockSet b k) x k { x with s := setFlag b x.s, cm := .changed }
  | notify {p : FProg K α} {x : FS K} : x.cm = .changed → FC sp p x p { x with cm := .closing, wm := x.wm.wake }
  | unlock {p : FProg K α} {x : FS K} : x.cm = .closing → FC sp p x p { x with cm := .out }
  | spurious {p : FProg K α} {x : FS K} : sp = true → x.cm = .asleep → FC sp p x p { x with cm := .awake }
  | relock {p : FProg K α} {x : FS K} : x.cm = .awake → x.wm.holds = false → FC sp p x p { x with cm := .inside }

/-- One step of `union_collection_wait` (39-79).  Outside the sections it is `wstep`. -/
inductive FW (S : Sizing) (sp : Bool) : FS K → FS K → Prop where
  | step {x : FS K} {s' : BG K} {w' : WPC K.T} : x.wm = .out → x.w ≠ .test → x.w ≠ .finish → x.w ≠ .stopped →
      wstep S x.s x.w = .ok (s', w') → FW S sp x { x with s := s', w := w' }
  /-- 42 and 72 -/
  | lock {x : FS K} : x.wm = .out → (x.w = .test ∨ x.w = .finish) → x.cm.holds = false → FW S sp x { x with wm := .inside }
  /-- 43: the loop ends -/
  | pass {x : FS K} : x.w = .test → x.wm = .inside → (x.s.needs = true ∨ x.s.run = false) →
      FW S sp x { x with wm := .closing }
  /-- 44 -/
  | sleep {x : FS K} : x.w = .test → x.wm = .inside → x.s.needs = false → x.s.run = true →
      FW S sp x { x with wm := .asleep }
  | spurious {x : FS K} : sp = true → x.wm = .asleep → FW S sp x { x with wm := .awake }
  | relock {x : FS K} : x.wm = .awake → x.cm.holds = false → FW S sp x { x with wm := .inside }
  /-- 46 -/
  | unlock {x : FS K} : x.w = .test → x.wm = .closing → FW S sp x { x with wm := .checking }
  /-- 47 -/
  | go {x : FS K} : x.w = .test → x.wm = .checking → x.s.run = true → FW S sp x { x with w := .build, wm := .out }
  | stop {x : FS K} : x.w = .test → x.wm = .checking → x.s.run = false → FW S sp x { x with w := .stopped, wm := .out }
  /-- 73 -/
  | fin {x : FS K} : x.w = .finish → x.wm = .inside → FW S sp x { x with s := { x.s with needs := false }, wm := .changed }
  /-- 74 -/
  | notify {x : FS K} : x.w = .finish → x.wm = .changed → FW S sp x { x with cm := x.cm.wake, wm := .closing }
  /-- 75 -/
  | unlockF {x : FS K} : x.w = .finish → x.wm = .closing → FW S sp x { x with w := .top, wm := .out }

/-- Every execution of a program. -/
inductive FExec {α : Type} (S : Sizing) (sp : Bool) (p : FProg K α) (x : FS K) : FProg K α → FS K → Prop where
  | start : FExec S sp p x p x
  | caller {p' p'' : FProg K α} {x' x'' : FS K} : FExec S sp p x p' x' → FC sp p' x' p'' x'' → FExec S sp p x p'' x''
  | worker {p' : FProg K α} {x' x'' : FS K} : FExec S sp p x p' x' → FW S sp x' x'' → FExec S sp p x p' x''

/-- The states after the constructor and the calls `ops`, on every schedule. -/
inductive FReach (K : K2Impl) (S : Sizing) (n : Nat) : List Op → FS K → Prop where
  | start : n ≠ 1 → FReach K S n [] ⟨init K true S n, .out, .top, .out⟩
  | work {ops : List Op} {x x' : FS K} : FReach K S n ops x → FW S true x x' → FReach K S n ops x'
  | call {ops : List Op} {o : Op} {x x' : FS K} : FReach K S n ops x →
      FExec S true (fcall S o) x (.ret ()) x' → x'.cm = .out → FReach K S n (ops ++ [o]) x'

/-! ## The sections as single steps -/

theorem FProg.erase_bind {α β : Type} (p : FProg K α) (f : α → FProg K β) :
    (p.bind f).erase = p.erase.bind (fun a => (f a).erase) := by
  induction p with
  | ret a => rfl
  | act acc g k ih => simp only [FProg.bind, FProg.erase, Prog.bind, ih]
  | lockWait k ih => simp only [FProg.bind, FProg.erase, Prog.bind, ih]
  | lockSet b k ih => simp only [FProg.bind, FProg.erase, Prog.bind, ih]

/-- A program whose waits all test `needs_work`. -/
def WaitsNeeds {α : Type} : BProg K α → Prop
  | .ret _ => True
  | .act _ _ k => ∀ b, WaitsNeeds (k b)
  | .wait c k => c = (fun s => !s.needs) ∧ WaitsNeeds k

theorem FProg.erase_ofProg {α : Type} {p : BProg K α} (h : WaitsNeeds p) : (ofProg p).erase = p := by
  induction p with
  | ret a => rfl
  | act acc g k ih => simp only [ofProg, FProg.erase]; congr 1; funext b; exact ih b (h b)
  | wait c k ih => simp only [ofProg, FProg.erase]; rw [ih h.2, h.1]

theorem contains_waits (e : Edge) : WaitsNeeds (contains e : BProg K Bool) := by
  intro b
  cases b with
  | true => trivial
  | false =>
    intro nd
    cases nd <;> exact fun _ => trivial

theorem modify_erase (acc : Acc BLoc) (f : BG K → Res (BG K)) : (ofProg (Prog.modify acc f)).erase = Prog.modify acc f := rfl

theorem read_erase {β : Type} (acc : Acc BLoc) (f : BG K → Res β) : (ofProg (Prog.read acc f)).erase = Prog.read acc f := rfl

theorem fflush_erase (e : Edge) : (fflush e : FProg K Unit).erase = flush e := rfl

theorem faddEdge_erase (S : Sizing) (e : Edge) : (faddEdge S e : FProg K Unit).erase = addEdge true S e := by
  unfold faddEdge addEdge
  rw [FProg.erase_bind, FProg.erase_ofProg (contains_waits e)]
  congr 1
  funext b
  cases b with
  | true => rfl
  | false =>
    rw [if_neg Bool.false_ne_true, if_neg Bool.false_ne_true, FProg.erase_bind, read_erase]
    congr 1
    funext f
    cases f with
    | true => rw [if_pos rfl, if_pos rfl, modify_erase]
    | false =>
      rw [if_neg Bool.false_ne_true, if_neg Bool.false_ne_true]
      simp only [addFull, if_true, FProg.erase, fflush_erase]

theorem faddAll_erase (S : Sizing) (es : List Edge) : (faddAll S es : FProg K Unit).erase = addAll true S es := by
  induction es with
  | nil => rfl
  | cons e es ih => simp only [faddAll, addAll, FProg.erase_bind, faddEdge_erase, ih]

theorem fdelEdge_erase (S : Sizing) (e : Edge) : (fdelEdge S e : FProg K Unit).erase = delEdge true S e := by
  unfold fdelEdge delEdge
  rw [FProg.erase_bind]
  congr 1
  funext b
  cases b with
  | true => rfl
  | false =>
    rw [if_neg Bool.false_ne_true, if_neg Bool.false_ne_true]
    simp only [FProg.erase, FProg.erase_bind]
    congr 2
    funext l
    exact faddAll_erase S l

theorem fcall_erase (S : Sizing) (o : Op) : (fcall S o : FProg K Unit).erase = call true S o := by
  cases o with
  | add e => exact faddEdge_erase S e
  | del e => exact fdelEdge_erase S e

theorem fdestroy_erase : (fdestroy : FProg K Unit).erase = destroy := rfl

/-! ## Stretches outside the sections leave the flags alone -/

/-- Stretches leave the flags alone. -/
def Keeps {α : Type} : FProg K α → Prop
  | .ret _ => True
  | .act _ f k => (∀ s s' b, f s = .ok (s', b) → s'.needs = s.needs ∧ s'.run = s.run) ∧ ∀ b, Keeps (k b)
  | .lockWait k => Keeps k
  | .lockSet _ k => Keeps k

theorem Keeps.bind {α β : Type} {p : FProg K α} {f : α → FProg K β} (h : Keeps p) (hf : ∀ a, Keeps (f a)) :
    Keeps (p.bind f) := by
  induction p with
  | ret a => exact hf a
  | act acc g k ih => exact ⟨h.1, fun b => ih b (h.2 b)⟩
  | lockWait k ih => exact ih h
  | lockSet b k ih => exact ih h

theorem Keeps.read {β : Type} {acc : Acc BLoc} {f : BG K → Res β} : Keeps (ofProg (Prog.read acc f)) := by
  refine ⟨?_, fun _ => trivial⟩
  intro s s' b h
  rw [Res.bind_eq_ok] at h
  obtain ⟨_, _, h⟩ := h
  cases h
  exact ⟨rfl, rfl⟩

theorem Keeps.modify {acc : Acc BLoc} {f : BG K → Res (BG K)}
    (hf : ∀ s s', f s = .ok s' → s'.needs = s.needs ∧ s'.run = s.run) : Keeps (ofProg (Prog.modify acc f)) := by
  refine ⟨?_, fun _ => trivial⟩
  intro s s' b h
  rw [Res.bind_eq_ok] at h
  obtain ⟨_, h1, h⟩ := h
  cases h
  exact hf _ _ h1

theorem ofProg_bind {α β : Type} (p : BProg K α) (f : α → BProg K β) :
    (ofProg (p.bind f)) = (ofProg p).bind (fun a => ofProg (f a)) := by
  induction p with
  | ret a => rfl
  | act acc g k ih => simp only [Prog.bind, ofProg, FProg.bind, ih]
  | wait c k ih => simp only [Prog.bind, ofProg, FProg.bind, ih]

theorem contains_keeps (e : Edge) : Keeps (ofProg (contains e : BProg K Bool)) := by
  unfold contains
  rw [ofProg_bind]
  refine Keeps.read.bind fun b => ?_
  cases b with
  | true => trivial
  | false =>
    rw [if_neg Bool.false_ne_true]
    unfold containsTrees readNeeds
    rw [ofProg_bind]
    refine Keeps.read.bind fun nd => ?_
    cases nd <;> exact Keeps.read

theorem faddEdge_keeps (S : Sizing) (e : Edge) : Keeps (faddEdge S e : FProg K Unit) := by
  refine (contains_keeps e).bind fun b => ?_
  cases b with
  | true => trivial
  | false =>
    rw [if_neg Bool.false_ne_true]
    refine Keeps.read.bind fun f => ?_
    cases f with
    | true =>
      refine Keeps.modify ?_
      intro s s' h
      unfold insert at h
      rw [Res.bind_eq_ok] at h
      obtain ⟨_, _, h⟩ := h
      cases h; exact ⟨rfl, rfl⟩
    | false =>
      refine Keeps.bind (p := ofProg (Prog.modify ⟨[.c0, .levels, .maxR, .nTotal], [.conv, .maxSb, .maxRb, .tmpEdge, .bks]⟩ (prepare e)))
        (Keeps.modify ?_) fun _ => Keeps.modify (acc := ⟨[.c0, .nTotal], [.c0, .nTotal]⟩) ?_
      · intro s s' h
        unfold prepare at h
        rw [Res.bind_eq_ok] at h
        obtain ⟨_, _, h⟩ := h
        cases h; exact ⟨rfl, rfl⟩
      · intro s s' h
        unfold cleanup at h
        rw [Res.bind_eq_ok] at h
        obtain ⟨_, _, h⟩ := h
        cases h; exact ⟨rfl, rfl⟩

theorem faddAll_keeps (S : Sizing) (es : List Edge) : Keeps (faddAll S es : FProg K Unit) := by
  induction es with
  | nil => trivial
  | cons e es ih => exact (faddEdge_keeps S e).bind fun _ => ih

theorem fdelEdge_keeps (S : Sizing) (e : Edge) : Keeps (fdelEdge S e : FProg K Unit) := by
  refine Keeps.bind (p := FProg.act ⟨[.c0, .nTotal], [.c0, .nTotal]⟩ (eraseBuf e) .ret) ⟨?_, fun _ => trivial⟩ fun b => ?_
  · intro s s' b h
    unfold eraseBuf at h
    rw [Res.bind_eq_ok] at h
    obtain ⟨_, _, h⟩ := h
    cases h; exact ⟨rfl, rfl⟩
  · cases b with
    | true => trivial
    | false =>
      refine Keeps.bind (p := FProg.act ⟨[.levels, .maxR, .nTotal, .c0], [.levels, .maxR, .nTotal]⟩ (eraseLevels S e) .ret) ⟨?_, fun _ => trivial⟩ fun l => faddAll_keeps S l
      intro s s' b h
      unfold eraseLevels at h
      simp only at h
      split at h <;> cases h <;> exact ⟨rfl, rfl⟩

theorem fcall_keeps (S : Sizing) (o : Op) : Keeps (fcall S o : FProg K Unit) := by
  cases o with
  | add e => exact faddEdge_keeps S e
  | del e => exact fdelEdge_keeps S e

theorem fdestroy_keeps : Keeps (fdestroy : FProg K Unit) := trivial

theorem wstep_flags {S : Sizing} {s s' : BG K} {w w' : WPC K.T} (h : wstep S s w = .ok (s', w')) :
    s'.run = s.run ∧ (w ≠ .finish → s'.needs = s.needs) := by
  cases w with
  | top => simp only [wstep] at h; cases h; simp
  | test => simp only [wstep] at h; cases h; simp
  | build => simp only [wstep] at h; cases h; simp
  | search t =>
    simp only [wstep] at h
    split at h
    · cases h
    · cases h; simp
  | merge t i j =>
    simp only [wstep] at h
    split at h
    · split at h
      · cases h
      · cases h; simp
      · cases h; simp
    · cases h; simp
  | store t i =>
    simp only [wstep] at h
    rw [Res.bind_eq_ok] at h
    obtain ⟨ks, _, h⟩ := h
    cases h; simp
  | finish => simp only [wstep] at h; cases h; simp
  | stopped => simp only [wstep] at h; cases h; simp

/-! ## Invariant -/

/-- Which sections a program can be in. -/
def PM {α : Type} : FProg K α → Mic → Prop
  | .lockWait _, m => m ≠ .checking
  | .lockSet _ _, m => m = .out ∨ m = .inside ∨ m = .changed ∨ m = .closing
  | _, m => m = .out ∨ m = .changed ∨ m = .closing

/-- Mutual exclusion, and no thread sleeps through a change it waits for: the other thread, having made the change, still holds the
mutex and is about to call `notify_all`. -/
structure FInv (x : FS K) : Prop where
  excl : ¬ (x.cm.holds = true ∧ x.wm.holds = true)
  user : x.cm = .asleep → x.s.needs = true ∨ x.wm = .changed
  work : x.wm = .asleep → (x.s.needs = false ∧ x.s.run = true) ∨ x.cm = .changed
  pos : x.wm ≠ .out → (x.w = .test ∧ x.wm ≠ .changed) ∨
    (x.w = .finish ∧ (x.wm = .inside ∨ x.wm = .changed ∨ x.wm = .closing))
  seen : x.w = .test → (x.wm = .closing ∨ x.wm = .checking) → x.s.needs = true ∨ x.s.run = false

theorem setFlag_or (b : Bool) (s : BG K) : (setFlag b s).needs = true ∨ (setFlag b s).run = false := by
  cases b <;> simp [setFlag]

theorem FInv.caller {α : Type} {sp : Bool} {p p' : FProg K α} {x x' : FS K} (h : FInv x) (hp : PM p x.cm) (hk : Keeps p)
    (hs : FC sp p x p' x') : FInv x' ∧ PM p' x'.cm ∧ Keeps p' := by
  obtain ⟨h1, h2, h3, h4, h5⟩ := h
  cases hs with
  | act hc hf =>
    obtain ⟨e1, e2⟩ := hk.1 _ _ _ hf
    refine ⟨⟨h1, ?_, ?_, h4, ?_⟩, ?_, hk.2 _⟩
    · simpa [e1] using h2
    · simpa [e1, e2] using h3
    · simpa [e1, e2] using h5
    · rw [hc]; exact (by cases ‹_ → FProg K α› ‹_› <;> simp [PM])
  | lockW hc hw => exact ⟨⟨by simp [hw], by simp, by simpa [hc] using h3, h4, h5⟩, by simp [PM], hk⟩
  | pass hc hn =>
    refine ⟨⟨by simpa [hc, Mic.holds] using h1, by simp, by simpa [hc] using h3, h4, h5⟩, ?_, hk⟩
    show PM p' .closing
    cases p' <;> simp [PM]
  | sleep hc hn => exact ⟨⟨by simp [Mic.holds], by simp [hn], by simpa [hc] using h3, h4, h5⟩, by simp [PM], hk⟩
  | lockS hc hw => exact ⟨⟨by simp [hw], by simp, by simpa [hc] using h3, h4, h5⟩, by simp [PM], hk⟩
  | set hc =>
    refine ⟨⟨by simpa [hc, Mic.holds] using h1, by simp, by simp, h4, fun _ _ => setFlag_or _ _⟩, ?_, hk⟩
    show PM p' .changed
    cases p' <;> simp [PM]
  | notify hc =>
    have hw : x.wm.wake ≠ .asleep := by cases x.wm <;> simp [Mic.wake]
    refine ⟨⟨?_, by simp, fun h => absurd h hw, ?_, ?_⟩, ?_, hk⟩
    · intro ⟨_, hh⟩
      refine h1 ⟨by rw [hc]; rfl, ?_⟩
      revert hh
      cases x.wm <;> simp [Mic.wake, Mic.holds]
    · intro hh
      show (x.w = _ ∧ x.wm.wake ≠ _) ∨ (x.w = _ ∧ (x.wm.wake = _ ∨ x.wm.wake = _ ∨ x.wm.wake = _))
      revert hh h4
      cases x.wm <;> simp [Mic.wake]
    · intro ha hh
      refine h5 ha ?_
      revert hh
      cases x.wm <;> simp [Mic.wake]
    · show PM p .closing
      cases p <;> simp [PM]
  | unlock hc =>
    refine ⟨⟨by simp [Mic.holds], by simp, by simpa [hc] using h3, h4, h5⟩, ?_, hk⟩
    show PM p .out
    cases p <;> simp [PM]
  | spurious _ hc =>
    refine ⟨⟨by simp [Mic.holds], by simp, by simpa [hc] using h3, h4, h5⟩, ?_, hk⟩
    show PM p .awake
    rw [hc] at hp
    cases p <;> simp [PM] at hp ⊢
  | relock hc hw =>
    refine ⟨⟨by simp [hw], by simp, by simpa [hc] using h3, h4, h5⟩, ?_, hk⟩
    show PM p .inside
    rw [hc] at hp
    cases p <;> simp [PM] at hp ⊢

theorem FInv.worker {S : Sizing} {sp : Bool} {x x' : FS K} (h : FInv x) (hs : FW S sp x x') :
    FInv x' ∧ ∀ {α : Type} (p : FProg K α), PM p x.cm → PM p x'.cm := by
  obtain ⟨h1, h2, h3, h4, h5⟩ := h
  cases hs with
  | step hw ht hf _ hx =>
    obtain ⟨e1, e2⟩ := wstep_flags hx
    have e2 := e2 hf
    refine ⟨⟨h1, ?_, ?_, ?_, ?_⟩, fun p hp => hp⟩
    · simpa [e2] using h2
    · simp [hw]
    · simp [hw]
    · simp [hw]
  | lock hw ht hc =>
    refine ⟨⟨by simp [hc], ?_, by simp, ?_, by simp⟩, fun p hp => hp⟩
    · simpa [hw] using h2
    · intro _
      rcases ht with ht | ht
      · exact Or.inl ⟨ht, by simp⟩
      · exact Or.inr ⟨ht, by simp⟩
  | pass ht hw hn =>
    exact ⟨⟨by simpa [hw, Mic.holds] using h1, by simpa [hw] using h2, by simp, fun _ => Or.inl ⟨ht, by simp⟩, fun _ _ => hn⟩,
      fun p hp => hp⟩
  | sleep ht hw hn hr =>
    exact ⟨⟨by simp [Mic.holds], by simpa [hw] using h2, fun _ => Or.inl ⟨hn, hr⟩, fun _ => Or.inl ⟨ht, by simp⟩, by simp⟩,
      fun p hp => hp⟩
  | spurious _ hw =>
    refine ⟨⟨by simp [Mic.holds], by simpa [hw] using h2, by simp, ?_, by simp⟩, fun p hp => hp⟩
    intro _
    rcases h4 (by simp [hw]) with h | ⟨_, h⟩
    · exact Or.inl ⟨h.1, by simp⟩
    · simp [hw] at h
  | relock hw hc =>
    refine ⟨⟨by simp [hc], by simpa [hw] using h2, by simp, ?_, by simp⟩, fun p hp => hp⟩
    intro _
    rcases h4 (by simp [hw]) with h | ⟨_, h⟩
    · exact Or.inl ⟨h.1, by simp⟩
    · simp [hw] at h
  | unlock ht hw =>
    exact ⟨⟨by simp [Mic.holds], by simpa [hw] using h2, by simp, fun _ => Or.inl ⟨ht, by simp⟩,
      fun _ _ => h5 ht (Or.inl hw)⟩, fun p hp => hp⟩
  | go ht hw hr => exact ⟨⟨by simp [Mic.holds], by simpa [hw] using h2, by simp, by simp, by simp⟩, fun p hp => hp⟩
  | stop ht hw hr => exact ⟨⟨by simp [Mic.holds], by simpa [hw] using h2, by simp, by simp, by simp⟩, fun p hp => hp⟩
  | fin ht hw =>
    exact ⟨⟨by simpa [hw, Mic.holds] using h1, by simp, by simp, fun _ => Or.inr ⟨ht, by simp⟩, by simp [ht]⟩, fun p hp => hp⟩
  | notify ht hw =>
    have hne : x.cm.wake ≠ .asleep := by cases x.cm <;> simp [Mic.wake]
    refine ⟨⟨?_, fun h => absurd h hne, by simp, fun _ => Or.inr ⟨ht, by simp⟩, by simp [ht]⟩, fun p hp => ?_⟩
    · intro ⟨hh, _⟩
      refine h1 ⟨?_, by rw [hw]; rfl⟩
      revert hh
      cases x.cm <;> simp [Mic.wake, Mic.holds]
    · show PM p x.cm.wake
      revert hp
      cases x.cm <;> cases p <;> simp [PM, Mic.wake]
  | unlockF ht hw => exact ⟨⟨by simp [Mic.holds], by simpa [hw] using h2, by simp, by simp, by simp⟩, fun p hp => hp⟩

theorem FInv.exec {α : Type} {S : Sizing} {sp : Bool} {p p' : FProg K α} {x x' : FS K} (h : FInv x) (hp : PM p x.cm)
    (hk : Keeps p) (hx : FExec S sp p x p' x') : FInv x' ∧ PM p' x'.cm ∧ Keeps p' := by
  induction hx with
  | start => exact ⟨h, hp, hk⟩
  | caller _ hs ih => exact ih.1.caller ih.2.1 ih.2.2 hs
  | worker _ hs ih => exact ⟨(ih.1.worker hs).1, (ih.1.worker hs).2 _ ih.2.1, ih.2.2⟩

/-! ## Who may end the worker -/

/-- The program does not clear `run_w`. -/
def NoStop {α : Type} : FProg K α → Prop
  | .ret _ => True
  | .act _ _ k => ∀ b, NoStop (k b)
  | .lockWait k => NoStop k
  | .lockSet b k => b = true ∧ NoStop k

theorem NoStop.bind {α β : Type} {p : FProg K α} {f : α → FProg K β} (h : NoStop p) (hf : ∀ a, NoStop (f a)) :
    NoStop (p.bind f) := by
  induction p with
  | ret a => exact hf a
  | act acc g k ih => exact fun b => ih b (h b)
  | lockWait k ih => exact ih h
  | lockSet b k ih => exact ⟨h.1, ih h.2⟩

theorem NoStop.ofProg {α : Type} (p : BProg K α) : NoStop (ofProg p) := by
  induction p with
  | ret a => trivial
  | act acc g k ih => exact fun b => ih b
  | wait c k ih => exact ih

theorem faddEdge_noStop (S : Sizing) (e : Edge) : NoStop (faddEdge S e : FProg K Unit) := by
  refine (NoStop.ofProg (contains e)).bind fun b => ?_
  cases b with
  | true => trivial
  | false =>
    rw [if_neg Bool.false_ne_true]
    refine (NoStop.ofProg _).bind fun f => ?_
    cases f with
    | true => exact NoStop.ofProg _
    | false =>
      rw [if_neg Bool.false_ne_true]
      exact (NoStop.ofProg (Prog.modify ⟨[.c0, .levels, .maxR, .nTotal], [.conv, .maxSb, .maxRb, .tmpEdge, .bks]⟩
        (prepare e))).bind fun _ => ⟨rfl, NoStop.ofProg (Prog.modify _ cleanup)⟩

theorem faddAll_noStop (S : Sizing) (es : List Edge) : NoStop (faddAll S es : FProg K Unit) := by
  induction es with
  | nil => trivial
  | cons e es ih => exact (faddEdge_noStop S e).bind fun _ => ih

theorem fcall_noStop (S : Sizing) (o : Op) : NoStop (fcall S o : FProg K Unit) := by
  cases o with
  | add e => exact faddEdge_noStop S e
  | del e =>
    intro b
    cases b with
    | true => trivial
    | false => exact fun l => faddAll_noStop S l

/-- What the flags can be while the program runs: it is a call that leaves the worker running, or the destructor at one of its
points. -/
def Tame {α : Type} (p : FProg K α) (x : FS K) : Prop :=
  (x.w = .stopped → x.s.run = false) ∧
  ((NoStop p ∧ x.s.run = true) ∨ (∃ a, p = .lockWait (.lockSet false (.ret a)) ∧ x.s.run = true) ∨
    (∃ a, p = .lockSet false (.ret a) ∧ x.s.run = true ∧ x.s.needs = false) ∨
    ∃ a, p = .ret a ∧ x.s.run = false ∧ x.s.needs = false)

theorem Tame.flags {α : Type} {p : FProg K α} {x : FS K} (h : Tame p x) : x.s.needs = true → x.s.run = true := by
  rcases h.2 with h | ⟨_, h⟩ | ⟨_, h⟩ | ⟨_, h⟩
  · exact fun _ => h.2
  · exact fun _ => h.2
  · exact fun _ => h.2.1
  · intro hn; rw [h.2.2] at hn; cases hn

theorem Tame.caller {α : Type} {sp : Bool} {p p' : FProg K α} {x x' : FS K} (h : Tame p x) (hk : Keeps p)
    (hs : FC sp p x p' x') : Tame p' x' := by
  obtain ⟨h0, h⟩ := h
  cases hs with
  | act hc hf =>
    obtain ⟨e1, e2⟩ := hk.1 _ _ _ hf
    refine ⟨by simpa [e2] using h0, Or.inl ?_⟩
    rcases h with h | ⟨_, h, _⟩ | ⟨_, h, _⟩ | ⟨_, h, _⟩
    · exact ⟨h.1 _, by simpa [e2] using h.2⟩
    · cases h
    · cases h
    · cases h
  | lockW _ _ => exact ⟨h0, h⟩
  | pass _ hn =>
    refine ⟨h0, ?_⟩
    rcases h with h | ⟨a, h, h'⟩ | ⟨_, h, _⟩ | ⟨_, h, _⟩
    · exact Or.inl h
    · cases h; exact Or.inr (Or.inr (Or.inl ⟨a, rfl, h', hn⟩))
    · cases h
    · cases h
  | sleep _ _ => exact ⟨h0, h⟩
  | lockS _ _ => exact ⟨h0, h⟩
  | set _ =>
    rcases h with h | ⟨a, h, h'⟩ | ⟨a, h, h1, h2⟩ | ⟨_, h, _⟩
    · obtain ⟨rfl, h1⟩ := h.1
      exact ⟨by simpa [setFlag] using h0, Or.inl ⟨h1, by simpa [setFlag] using h.2⟩⟩
    · cases h
    · cases h
      exact ⟨by simp [setFlag], Or.inr (Or.inr (Or.inr ⟨a, rfl, by simp [setFlag], by simpa [setFlag] using h2⟩))⟩
    · cases h
  | notify _ => exact ⟨h0, h⟩
  | unlock _ => exact ⟨h0, h⟩
  | spurious _ _ => exact ⟨h0, h⟩
  | relock _ _ => exact ⟨h0, h⟩

theorem Tame.worker {α : Type} {S : Sizing} {sp : Bool} {p : FProg K α} {x x' : FS K} (h : Tame p x) (hs : FW S sp x x') :
    Tame p x' := by
  have key : ∀ y : FS K, y.s.run = x.s.run → (x.s.needs = false → y.s.needs = false) →
      (y.w = .stopped → x.w = .stopped ∨ x.s.run = false) → Tame p y := by
    intro y h1 h2 h3
    refine ⟨fun hw => h1.trans ((h3 hw).elim h.1 id), ?_⟩
    rw [h1]
    rcases h.2 with h | h | ⟨a, ha, hb, hc⟩ | ⟨a, ha, hb, hc⟩
    · exact Or.inl h
    · exact Or.inr (Or.inl h)
    · exact Or.inr (Or.inr (Or.inl ⟨a, ha, hb, h2 hc⟩))
    · exact Or.inr (Or.inr (Or.inr ⟨a, ha, hb, h2 hc⟩))
  cases hs with
  | @step s' w' hw ht hf hst hx =>
    obtain ⟨e1, e2⟩ := wstep_flags hx
    refine key _ e1 (fun hn => (e2 hf).trans hn) ?_
    intro hw'
    simp only at hw'
    subst hw'
    right
    cases hxw : x.w with
    | top =>
      rw [hxw] at hx
      simp only [wstep] at hx
      cases hr : x.s.run with
      | false => rfl
      | true => rw [hr] at hx; simp at hx
    | test => exact absurd hxw ht
    | build => rw [hxw] at hx; simp [wstep] at hx
    | search t => rw [hxw] at hx; simp only [wstep] at hx; split at hx <;> cases hx
    | merge t i j =>
      rw [hxw] at hx; simp only [wstep] at hx
      split at hx
      · split at hx <;> cases hx
      · cases hx
    | store t i =>
      rw [hxw] at hx; simp only [wstep] at hx
      rw [Res.bind_eq_ok] at hx
      obtain ⟨_, _, hx⟩ := hx
      cases hx
    | finish => exact absurd hxw hf
    | stopped => exact absurd hxw hst
  | lock _ _ _ => exact key _ rfl id (fun h => Or.inl h)
  | pass _ _ _ => exact key _ rfl id (fun h => Or.inl h)
  | sleep _ _ _ _ => exact key _ rfl id (fun h => Or.inl h)
  | spurious _ _ => exact key _ rfl id (fun h => Or.inl h)
  | relock _ _ => exact key _ rfl id (fun h => Or.inl h)
  | unlock _ _ => exact key _ rfl id (fun h => Or.inl h)
  | go _ _ _ => exact key _ rfl id (by simp)
  | stop _ _ hr => exact key _ rfl id (fun _ => Or.inr hr)
  | fin _ _ => exact key _ rfl (fun _ => rfl) (fun h => Or.inl h)
  | notify _ _ => exact key _ rfl id (fun h => Or.inl h)
  | unlockF _ _ => exact key _ rfl id (by simp)

theorem FW.run {S : Sizing} {sp : Bool} {x x' : FS K} (hs : FW S sp x x') : x'.s.run = x.s.run := by
  cases hs with
  | step _ _ _ _ hx => exact (wstep_flags hx).1
  | _ => rfl

theorem FC.run {α : Type} {sp : Bool} {p p' : FProg K α} {x x' : FS K} (hs : FC sp p x p' x') (hk : Keeps p) (hn : NoStop p) :
    x'.s.run = x.s.run ∧ NoStop p' ∧ Keeps p' := by
  cases hs with
  | act _ hf => exact ⟨(hk.1 _ _ _ hf).2, hn _, hk.2 _⟩
  | set _ =>
    obtain ⟨rfl, h⟩ := hn
    exact ⟨rfl, h, hk⟩
  | _ => exact ⟨rfl, hn, hk⟩

theorem FExec.run {α : Type} {S : Sizing} {sp : Bool} {p p' : FProg K α} {x x' : FS K} (hx : FExec S sp p x p' x')
    (hk : Keeps p) (hn : NoStop p) : x'.s.run = x.s.run ∧ NoStop p' ∧ Keeps p' := by
  induction hx with
  | start => exact ⟨rfl, hn, hk⟩
  | caller _ hs ih =>
    obtain ⟨h1, h2, h3⟩ := hs.run ih.2.2 ih.2.1
    exact ⟨h1.trans ih.1, h2, h3⟩
  | worker _ hs ih => exact ⟨hs.run.trans ih.1, ih.2⟩

/-! ## Refinement of the model of `Bg` -/

/-- Where `Bg` sees the worker: `needs_work_w = false` and what follows in its section are one step there. -/
def FS.pc (x : FS K) : WPC K.T := match x.w with
  | .finish => if x.wm = .changed ∨ x.wm = .closing then .top else .finish
  | w => w

theorem FS.pc_of {x : FS K} (h : x.w ≠ .finish ∨ (x.wm ≠ .changed ∧ x.wm ≠ .closing)) : x.pc = x.w := by
  unfold FS.pc
  cases hw : x.w with
  | finish => simpa [hw] using h
  | _ => rfl

theorem FC.refine {α : Type} {sp : Bool} {S : Sizing} {p p' : FProg K α} {x x' : FS K} (hs : FC sp p x p' x') :
    Exec (BG.worker K S) p.erase x.s x.pc p'.erase x'.s x'.pc := by
  cases hs with
  | act hc hf => exact .caller .start (.act hf)
  | lockW _ _ => exact .start
  | pass _ hn => exact .caller .start (.pass (by simp [hn]))
  | sleep _ _ => exact .start
  | lockS _ _ => exact .start
  | set _ => exact .caller .start (.act rfl)
  | notify _ =>
    have : FS.pc ⟨x.s, .closing, x.w, x.wm.wake⟩ = x.pc := by
      unfold FS.pc
      cases x.wm <;> simp [Mic.wake]
    rw [this]; exact .start
  | unlock _ => exact .start
  | spurious _ _ => exact .start
  | relock _ _ => exact .start

theorem FW.refine {sp : Bool} {S : Sizing} {x x' : FS K} (hi : FInv x) (hf : x.s.needs = true → x.s.run = true)
    (hs : FW S sp x x') : ∃ k, wrun S k x.s x.pc = .ok (x'.s, x'.pc) := by
  have h0 : ∀ y : FS K, y.s = x.s → y.pc = x.pc → ∃ k, wrun S k x.s x.pc = .ok (y.s, y.pc) := by
    intro y h1 h2
    exact ⟨0, by rw [h1, h2]; rfl⟩
  cases hs with
  | step hw ht hf hst hx =>
    refine ⟨1, ?_⟩
    rw [FS.pc_of (Or.inl hf), FS.pc_of (Or.inr (by simp [hw]))]
    simp only [wrun, hx]
    rfl
  | lock hw ht hc => exact h0 _ rfl (by rw [FS.pc_of (Or.inr (by simp)), FS.pc_of (Or.inr (by simp [hw]))])
  | pass ht hw hn => exact h0 _ rfl (by rw [FS.pc_of (Or.inl (by simp [ht])), FS.pc_of (Or.inl (by simp [ht]))])
  | sleep ht hw hn hr => exact h0 _ rfl (by rw [FS.pc_of (Or.inl (by simp [ht])), FS.pc_of (Or.inl (by simp [ht]))])
  | spurious _ hw => exact h0 _ rfl (by rw [FS.pc_of (Or.inr (by simp)), FS.pc_of (Or.inr (by simp [hw]))])
  | relock hw hc => exact h0 _ rfl (by rw [FS.pc_of (Or.inr (by simp)), FS.pc_of (Or.inr (by simp [hw]))])
  | unlock ht hw => exact h0 _ rfl (by rw [FS.pc_of (Or.inl (by simp [ht])), FS.pc_of (Or.inl (by simp [ht]))])
  | go ht hw hr =>
    have hn : x.s.needs = true := by
      rcases hi.seen ht (Or.inr hw) with h | h
      · exact h
      · rw [hr] at h; cases h
    refine ⟨1, ?_⟩
    rw [FS.pc_of (Or.inl (by simp [ht])), FS.pc_of (Or.inl (by simp)), ht]
    simp [wrun, wstep, hn]
  | stop ht hw hr =>
    have hn : x.s.needs = false := by
      cases hn : x.s.needs with
      | false => rfl
      | true => rw [hf hn] at hr; cases hr
    refine ⟨2, ?_⟩
    rw [FS.pc_of (Or.inl (by simp [ht])), FS.pc_of (Or.inl (by simp)), ht]
    simp [wrun, wstep, hn, hr]
  | fin ht hw =>
    refine ⟨1, ?_⟩
    rw [FS.pc_of (Or.inr (by simp [hw])), ht]
    simp [wrun, wstep, FS.pc]
  | notify ht hw => exact h0 _ rfl (by simp [FS.pc, ht, hw])
  | unlockF ht hw => exact h0 _ rfl (by simp [FS.pc, ht, hw])

theorem FExec.refine {α : Type} {sp : Bool} {S : Sizing} {p p' : FProg K α} {x x' : FS K} (hi : FInv x) (hp : PM p x.cm)
    (hk : Keeps p) (ht : Tame p x) (hx : FExec S sp p x p' x') :
    (FInv x' ∧ PM p' x'.cm ∧ Keeps p' ∧ Tame p' x') ∧ Exec (BG.worker K S) p.erase x.s x.pc p'.erase x'.s x'.pc := by
  induction hx with
  | start => exact ⟨⟨hi, hp, hk, ht⟩, .start⟩
  | caller _ hs ih =>
    obtain ⟨⟨h1, h2, h3, h4⟩, h5⟩ := ih
    obtain ⟨g1, g2, g3⟩ := h1.caller h2 h3 hs
    exact ⟨⟨g1, g2, g3, h4.caller h3 hs⟩, h5.trans hs.refine⟩
  | worker _ hs ih =>
    obtain ⟨⟨h1, h2, h3, h4⟩, h5⟩ := ih
    obtain ⟨g1, g2⟩ := h1.worker hs
    obtain ⟨k, hk⟩ := hs.refine h1 h4.flags
    exact ⟨⟨g1, g2 _ h2, h3, h4.worker hs⟩, h5.trans (Exec_wrun k hk)⟩

theorem Reach.wrun {wv : Bool} {S : Sizing} {n : Nat} {ops : List Op} : ∀ (k : Nat) {s s' : BG K} {w w' : WPC K.T},
    Reach wv K S n ops s w → BG.wrun S k s w = .ok (s', w') → Reach wv K S n ops s' w' := by
  intro k
  induction k with
  | zero => intro s s' w w' h hs; simp only [BG.wrun] at hs; cases hs; exact h
  | succ k ih =>
    intro s s' w w' h hs
    simp only [BG.wrun] at hs
    rw [Res.bind_eq_ok] at hs
    obtain ⟨⟨s1, w1⟩, h1, h2⟩ := hs
    exact ih (.work h h1) h2

/-- What holds between calls. -/
structure FIdle (x : FS K) : Prop where
  inv : FInv x
  cm : x.cm = .out
  run : x.s.run = true
  alive : x.w ≠ .stopped

theorem FIdle.tame {x : FS K} (h : FIdle x) {α : Type} {p : FProg K α} (hp : NoStop p) : Tame p x :=
  ⟨fun hw => absurd hw h.alive, Or.inl ⟨hp, h.run⟩⟩

theorem FIdle.destroy {x : FS K} (h : FIdle x) : Tame fdestroy x :=
  ⟨fun hw => absurd hw h.alive, Or.inr (Or.inl ⟨(), rfl, h.run⟩)⟩

theorem FIdle.pm {x : FS K} (h : FIdle x) {α : Type} (p : FProg K α) : PM p x.cm := by
  rw [h.cm]; cases p <;> simp [PM]

theorem FReach.refine {S : Sizing} {n : Nat} {ops : List Op} {x : FS K} (h : FReach K S n ops x) :
    FIdle x ∧ Reach true K S n ops x.s x.pc := by
  induction h with
  | start hn =>
    refine ⟨⟨⟨by simp [Mic.holds], by simp, by simp, by simp, by simp⟩, rfl, rfl, by simp⟩, ?_⟩
    exact .start hn
  | @work ops x x' _ hs ih =>
    obtain ⟨h1, h2⟩ := ih
    obtain ⟨k, hk⟩ := hs.refine h1.inv (fun _ => h1.run)
    have ht := (h1.tame (p := (FProg.ret () : FProg K Unit)) trivial).worker hs
    have hr : x'.s.run = true := hs.run.trans h1.run
    refine ⟨⟨(h1.inv.worker hs).1, ?_, hr, fun hw => ?_⟩, h2.wrun k hk⟩
    · have hcm := h1.cm
      cases hs <;> simp [hcm, Mic.wake]
    · rw [ht.1 hw] at hr; cases hr
  | @call ops o x x' _ hx hc ih =>
    obtain ⟨h1, h2⟩ := ih
    obtain ⟨⟨g1, g2, g3, g4⟩, g5⟩ := hx.refine h1.inv (h1.pm _) (fcall_keeps S o) (h1.tame (fcall_noStop S o))
    rw [fcall_erase] at g5
    have hr : x'.s.run = true := by
      exact (hx.run (fcall_keeps S o) (fcall_noStop S o)).1.trans h1.run
    exact ⟨⟨g1, hc, hr, fun hw => by rw [g4.1 hw] at hr; cases hr⟩, .call h2 g5⟩

end BG
end DK2
