import Verif.BgMore
import Mathlib.Logic.Relation
/-!
# Two `DKtree_background_wait` graphs in one program (C39)

The flags `needs_work_w`, `run_w` are global variables (`DKtree_background_wait.hpp`:35), shared by all objects of
the class and their worker threads.  One user thread, two objects; `true`/`false` name them.
-/

namespace DK2
open BG
variable {K : K2Impl}

/-- The program: the objects (the fields `needs`, `run` of `obj x` are unused), their worker threads (`none`: never
started), which objects exist, the global flags (35), the call in progress, and the calls completed. -/
structure Two (K : K2Impl) where
  obj : Bool → BG K
  wk : Bool → Option (WPC K.T)
  alive : Bool → Bool
  needs : Bool
  run : Bool
  cur : Option (Bool × Op × BProg K Unit)
  ops : Bool → List Op

namespace Two

/-- The object `x` as its methods see it. -/
def view (t : Two K) (x : Bool) : BG K := { t.obj x with needs := t.needs, run := t.run }

/-- The program after a step on the object `x`. -/
def put (t : Two K) (x : Bool) (s : BG K) : Two K :=
  { t with obj := Function.update t.obj x s, needs := s.needs, run := s.run }

/-- `union_collection_wait` (39-79): as `wstep`, except that a thread that finds `run_w` false at lines 42-46 leaves
the loop even if `needs_work_w` is set. -/
def wstep2 (S : Sizing) (s : BG K) (w : WPC K.T) : Res (BG K × WPC K.T) :=
  match w with
  | .test => if s.run then wstep S s .test else .ok (s, .stopped)
  | w => wstep S s w

/-- The initial program: no object, flags zero-initialised. -/
def start (K : K2Impl) (S : Sizing) : Two K :=
  ⟨fun _ => init K true S 0, fun _ => none, fun _ => false, false, false, none, fun _ => []⟩

/-- One step of the program; `n x` is the number of vertices with which object `x` is constructed. -/
inductive Step (S : Sizing) (n : Bool → Nat) : Two K → Two K → Prop where
  /-- The constructor (137-154): the flags are set, whatever other objects do. -/
  | ctor {t : Two K} {x : Bool} : t.wk x = none → t.cur = none → n x ≠ 1 →
      Step S n t { t with obj := Function.update t.obj x (init K true S (n x)), wk := Function.update t.wk x (some .top),
                          alive := Function.update t.alive x true, needs := false, run := true }
  /-- The destructor (121-135), when its wait passes. -/
  | dtor {t : Two K} {x : Bool} : t.alive x = true → t.cur = none → t.needs = false →
      Step S n t { t with alive := Function.update t.alive x false, run := false }
  /-- A step of the worker thread of object `x`. -/
  | work {t : Two K} {x : Bool} {w w' : WPC K.T} {s' : BG K} : t.wk x = some w → wstep2 S (t.view x) w = .ok (s', w') →
      Step S n t { t.put x s' with wk := Function.update t.wk x (some w') }
  /-- The user calls `add_edge` or `del_edge`. -/
  | begin {t : Two K} {x : Bool} (o : Op) : t.alive x = true → t.cur = none →
      Step S n t { t with cur := some (x, o, BG.call true S o) }
  /-- A step of the call in progress. -/
  | caller {t : Two K} {x : Bool} {o : Op} {p p' : BProg K Unit} {s' : BG K} : t.cur = some (x, o, p) →
      CStep p (t.view x) p' s' → Step S n t { t.put x s' with cur := some (x, o, p') }
  /-- The call returns. -/
  | finish {t : Two K} {x : Bool} {o : Op} : t.cur = some (x, o, .ret ()) →
      Step S n t { t with cur := none, ops := Function.update t.ops x (t.ops x ++ [o]) }

/-- The states of the program. -/
def Reach (S : Sizing) (n : Bool → Nat) (t : Two K) : Prop := Relation.ReflTransGen (Step S n) (start K S) t

end Two

open Two

/-! ## C39 -/

/-- C39: whatever happens to the other graph, every existing graph is in a state it could have reached alone, and no
worker touches an object that no longer exists. -/
def C39_Full : Prop :=
  ∀ K : K2Impl, K.Lawful → ∀ (n : Bool → Nat) (t : Two K), Two.Reach realSizing n t →
    (t.cur = none → ∀ x w, t.alive x = true → t.wk x = some w → BG.Reach true K realSizing (n x) (t.ops x) (t.view x) w) ∧
    (∀ x w, t.alive x = false → t.wk x = some w → touches true w = false)

/-! ### Concrete runs -/

/-- An event of a concrete run. -/
inductive TEv where
  | ctor (x : Bool)
  | dtor (x : Bool)
  | work (x : Bool)
  | begin (x : Bool) (o : Op)
  | caller
  | finish

/-- One event, computed. -/
def tstep (S : Sizing) (n : Bool → Nat) (t : Two refK2) : TEv → Option (Two refK2)
  | .ctor x => if (t.wk x).isNone && t.cur.isNone && decide (n x ≠ 1) then
      some { t with obj := Function.update t.obj x (init refK2 true S (n x)), wk := Function.update t.wk x (some .top),
                    alive := Function.update t.alive x true, needs := false, run := true }
    else none
  | .dtor x => if t.alive x && t.cur.isNone && !t.needs then
      some { t with alive := Function.update t.alive x false, run := false } else none
  | .work x => match t.wk x with
    | some w => match wstep2 S (t.view x) w with
      | .ok (s', w') => some { t.put x s' with wk := Function.update t.wk x (some w') }
      | _ => none
    | none => none
  | .begin x o => if t.alive x && t.cur.isNone then some { t with cur := some (x, o, BG.call true S o) } else none
  | .caller => match t.cur with
    | some (x, o, p) => match cstep p (t.view x) with
      | some (p', s') => some { t.put x s' with cur := some (x, o, p') }
      | none => none
    | none => none
  | .finish => match t.cur with
    | some (x, o, .ret ()) => some { t with cur := none, ops := Function.update t.ops x (t.ops x ++ [o]) }
    | _ => none

theorem tstep_sound {S : Sizing} {n : Bool → Nat} {t t' : Two refK2} {e : TEv} (h : tstep S n t e = some t') :
    Two.Step S n t t' := by
  cases e with
  | ctor x =>
    simp only [tstep] at h
    split at h
    · rename_i hc
      simp only [Bool.and_eq_true, Option.isNone_iff_eq_none, decide_eq_true_eq] at hc
      cases h
      exact .ctor hc.1.1 hc.1.2 hc.2
    · cases h
  | dtor x =>
    simp only [tstep] at h
    split at h
    · rename_i hc
      simp only [Bool.and_eq_true, Option.isNone_iff_eq_none, Bool.not_eq_true'] at hc
      cases h
      exact .dtor hc.1.1 hc.1.2 hc.2
    · cases h
  | work x =>
    simp only [tstep] at h
    split at h
    · rename_i w hw
      split at h
      · rename_i s' w' hs
        cases h
        exact .work hw hs
      · cases h
    · cases h
  | begin x o =>
    simp only [tstep] at h
    split at h
    · rename_i hc
      simp only [Bool.and_eq_true, Option.isNone_iff_eq_none] at hc
      cases h
      exact .begin o hc.1 hc.2
    · cases h
  | caller =>
    simp only [tstep] at h
    split at h
    · rename_i x o p hc
      split at h
      · rename_i p' s' hs
        cases h
        exact .caller hc (cstep_sound hs)
      · cases h
    · cases h
  | finish =>
    simp only [tstep] at h
    split at h
    · rename_i x o hc
      cases h
      exact .finish hc
    · cases h

/-- A run, computed. -/
def tplay (S : Sizing) (n : Bool → Nat) : List TEv → Two refK2 → Option (Two refK2)
  | [], t => some t
  | e :: l, t => match tstep S n t e with
    | some t' => tplay S n l t'
    | none => none

theorem tplay_sound {S : Sizing} {n : Bool → Nat} : ∀ (l : List TEv) {t t' : Two refK2}, tplay S n l t = some t' →
    Relation.ReflTransGen (Two.Step S n) t t' := by
  intro l
  induction l with
  | nil => intro t t' h; simp only [tplay] at h; cases h; exact .refl
  | cons e l ih =>
    intro t t' h
    simp only [tplay] at h
    split at h
    · rename_i t1 h1
      exact .head (tstep_sound h1) (ih h)
    · cases h

/-- The state after a run passes a test. -/
def tplayTest (S : Sizing) (n : Bool → Nat) (l : List TEv) (f : Two refK2 → Bool) : Bool :=
  match tplay S n l (Two.start refK2 S) with
  | some t => f t
  | none => false

theorem tplayTest_sound {n : Bool → Nat} {l : List TEv} {f : Two refK2 → Bool}
    (h : tplayTest hybSizing n l f = true) : ∃ t, Two.Reach realSizing n t ∧ f t = true := by
  rw [realSizing_eq_hyb]
  unfold tplayTest at h
  split at h
  · rename_i t h1
    exact ⟨t, tplay_sound l h1, h⟩
  · cases h

/-- A call that runs without interruption, in `k` steps. -/
def tcall (x : Bool) (o : Op) (k : Nat) : List TEv := [.begin x o] ++ List.replicate k .caller ++ [.finish]

/-- Two insertions into `x`: the second hands both edges to the worker. -/
def tadds (x : Bool) : List TEv := tcall x (.add (0, 1)) 5 ++ tcall x (.add (1, 2)) 8

/-- A graph with nothing pending that does not report an inserted edge is in a state it could not have reached
alone. -/
theorem not_alone {es : List Edge} {s : BG refK2} {w : WPC refK2.T} {e : Edge} (he : e ∈ es)
    (hes : ∀ e ∈ es, InRange 5 e) (hn : s.needs = false)
    (hc : callTest hybSizing (contains e) 3 (fun b => !b) s w = true) :
    ¬ BG.Reach true refK2 realSizing 5 (es.map Op.add) s w := by
  intro hr
  obtain ⟨b, s', w', h3, h4⟩ := callTest_sound (p := fun _ => contains e) hc
  have ho : OpsInRange 5 (es.map Op.add) := by
    intro o hoo
    obtain ⟨e, h1, rfl⟩ := List.mem_map.1 hoo
    exact hes e h1
  have := ((C36_no_loss_partial refK2_lawful realSizing true ho hr hn).1 e (hes e he)).2 b s' w' h3
  rw [this.1 (by rw [specMem_iff_specRun]; exact (DK.specRun_inserts es e).2 he)] at h4
  cases h4

/-- What `C39_Full` excludes, tested. -/
noncomputable def hiddenB (t : Two refK2) : Bool :=
  !t.needs && t.alive true && t.cur.isNone && decide (t.ops true = [(0, 1), (1, 2)].map Op.add) &&
    match t.wk true with
    | some w => callTest hybSizing (contains (0, 1)) 3 (fun b => !b) (t.view true) w
    | none => false

theorem hiddenB_sound {t : Two refK2} (h : hiddenB t = true) : t.cur = none ∧ t.needs = false ∧ ∃ w, t.alive true = true ∧
    t.wk true = some w ∧ ¬ BG.Reach true refK2 realSizing 5 (t.ops true) (t.view true) w := by
  simp only [hiddenB, Bool.and_eq_true, Option.isNone_iff_eq_none, decide_eq_true_eq] at h
  obtain ⟨⟨⟨⟨h1, h2⟩, h3⟩, h4⟩, h5⟩ := h
  split at h5
  · rename_i w hw
    refine ⟨h3, by simpa using h1, w, h2, hw, ?_⟩
    rw [h4]
    exact not_alone (by simp) (by decide) (by simpa [view] using h1) h5
  · cases h5

/-- Constructing a second graph while a merge of the first is pending clears the flag: the first graph's edges stay
invisible although nothing is pending. -/
theorem C39_ctor_refuted : ∃ t : Two refK2, Two.Reach realSizing (fun _ => 5) t ∧ t.cur = none ∧ t.needs = false ∧ ∃ w,
    t.alive true = true ∧ t.wk true = some w ∧ ¬ BG.Reach true refK2 realSizing 5 (t.ops true) (t.view true) w := by
  have hx : tplayTest hybSizing (fun _ => 5) ([.ctor true] ++ tadds true ++ [.ctor false]) hiddenB = true := by
    decide +kernel
  obtain ⟨t, h1, h2⟩ := tplayTest_sound hx
  exact ⟨t, h1, hiddenB_sound h2⟩

/-- The other graph's worker takes the job, finds nothing to merge and clears the flag. -/
theorem C39_worker_refuted : ∃ t : Two refK2, Two.Reach realSizing (fun _ => 5) t ∧ t.cur = none ∧ t.needs = false ∧ ∃ w,
    t.alive true = true ∧ t.wk true = some w ∧ ¬ BG.Reach true refK2 realSizing 5 (t.ops true) (t.view true) w := by
  have hx : tplayTest hybSizing (fun _ => 5) ([.ctor true, .ctor false] ++ tadds false ++ List.replicate 10 (.work false) ++ tadds true ++
      List.replicate 12 (.work false))
      hiddenB = true := by
    decide +kernel
  obtain ⟨t, h1, h2⟩ := tplayTest_sound hx
  exact ⟨t, h1, hiddenB_sound h2⟩

/-- A graph is destroyed and another constructed before the first one's worker has noticed: the first worker takes the job of the
second graph on the destroyed object. -/
theorem C39_zombie_refuted : ∃ t : Two refK2, Two.Reach realSizing (fun _ => 5) t ∧ ∃ w, t.alive true = false ∧
    t.wk true = some w ∧ touches true w = true := by
  have hx : tplayTest hybSizing (fun _ => 5) ([.ctor true, .dtor true, .ctor false] ++ tadds false ++
      [.work true, .work true]) (fun t => !t.alive true && match t.wk true with
        | some w => touches true w
        | none => false) = true := by
    decide +kernel
  obtain ⟨t, h1, h2⟩ := tplayTest_sound hx
  rw [Bool.and_eq_true] at h2
  obtain ⟨h2, h3⟩ := h2
  split at h3
  · rename_i w hw
    exact ⟨t, h1, w, by simpa using h2, hw, h3⟩
  · cases h3

/-- Destroying one graph stops the worker of the other. -/
theorem C39_dtor_refuted : ∃ t : Two refK2, Two.Reach realSizing (fun _ => 5) t ∧ t.alive true = true ∧
    t.needs = true ∧ t.wk true = some .stopped ∧ t.wk false = some .stopped := by
  have hx : tplayTest hybSizing (fun _ => 5) ([.ctor true, .ctor false, .dtor false, .work true, .work false] ++ tadds true)
      (fun t => t.alive true && t.needs && decide (t.wk true = some .stopped) && decide (t.wk false = some .stopped)) =
      true := by
    decide +kernel
  obtain ⟨t, h1, h2⟩ := tplayTest_sound hx
  simp only [Bool.and_eq_true, decide_eq_true_eq] at h2
  exact ⟨t, h1, h2.1.1.1, h2.1.1.2, h2.1.2, h2.2⟩

theorem C39_refuted : ¬ C39_Full := by
  intro h
  obtain ⟨t, h1, w, h2, h3, h4⟩ := C39_zombie_refuted
  rw [(h refK2 refK2_lawful _ t h1).2 true w h2 h3] at h4
  cases h4

/-! ### One graph after the other -/

/-- The program never changes `run`. -/
def KeepsRun {α : Type} : BProg K α → Prop
  | .ret _ => True
  | .act _ f k => (∀ s s' b, f s = .ok (s', b) → s'.run = s.run) ∧ ∀ b, KeepsRun (k b)
  | .wait _ k => KeepsRun k

theorem KeepsRun.bind {α β : Type} {p : BProg K α} {f : α → BProg K β} (hp : KeepsRun p)
    (hf : ∀ a, KeepsRun (f a)) : KeepsRun (p.bind f) := by
  induction p with
  | ret a => exact hf a
  | act acc g k ih => exact ⟨hp.1, fun b => ih b (hp.2 b)⟩
  | wait c k ih => exact ih hp

theorem KeepsRun.read {β : Type} {acc : Acc BLoc} {f : BG K → Res β} : KeepsRun (Prog.read acc f) := by
  refine ⟨fun s s' b h => ?_, fun _ => trivial⟩
  rw [Res.bind_eq_ok] at h
  obtain ⟨b', _, h⟩ := h
  cases h; rfl

theorem KeepsRun.modify {acc : Acc BLoc} {f : BG K → Res (BG K)} (hf : ∀ s s', f s = .ok s' → s'.run = s.run) :
    KeepsRun (Prog.modify acc f) := by
  refine ⟨fun s s' b h => ?_, fun _ => trivial⟩
  rw [Res.bind_eq_ok] at h
  obtain ⟨b', h1, h⟩ := h
  cases h; exact hf _ _ h1

theorem insert_run {S : Sizing} {e : Edge} {s s' : BG K} (h : BG.insert S e s = .ok s') : s'.run = s.run := by
  unfold BG.insert at h
  rw [Res.bind_eq_ok] at h
  obtain ⟨c, _, h⟩ := h
  cases h; rfl

theorem contains_keeps (e : Edge) : KeepsRun (contains e : BProg K Bool) := by
  refine KeepsRun.read.bind fun b => ?_
  cases b with
  | true => exact trivial
  | false =>
    refine KeepsRun.read.bind fun nd => ?_
    cases nd <;> exact KeepsRun.read

theorem flush_keeps (e : Edge) : KeepsRun (flush e : BProg K Unit) := by
  refine (KeepsRun.modify ?_).bind fun _ => (KeepsRun.modify ?_).bind fun _ => KeepsRun.modify ?_
  · intro s s' h
    unfold prepare at h
    rw [Res.bind_eq_ok] at h
    obtain ⟨c, _, h⟩ := h
    cases h; rfl
  · intro s s' h; cases h; rfl
  · intro s s' h
    unfold cleanup at h
    rw [Res.bind_eq_ok] at h
    obtain ⟨c, _, h⟩ := h
    cases h; rfl

theorem addEdge_keeps (S : Sizing) (e : Edge) : KeepsRun (addEdge true S e : BProg K Unit) := by
  refine (contains_keeps e).bind fun b => ?_
  cases b with
  | true => exact trivial
  | false =>
    refine KeepsRun.read.bind fun f => ?_
    cases f with
    | true => rw [if_pos rfl]; exact KeepsRun.modify fun s s' h => insert_run h
    | false => exact flush_keeps e

theorem addAll_keeps (S : Sizing) (es : List Edge) : KeepsRun (addAll true S es : BProg K Unit) := by
  induction es with
  | nil => exact trivial
  | cons e es ih => exact (addEdge_keeps S e).bind fun _ => ih

theorem call_keeps (S : Sizing) (o : Op) : KeepsRun (BG.call true S o : BProg K Unit) := by
  cases o with
  | add e => exact addEdge_keeps S e
  | del e =>
    refine KeepsRun.bind (p := Prog.act _ _ _) ⟨fun s s' b h => ?_, fun _ => trivial⟩ fun b => ?_
    · unfold eraseBuf at h
      rw [Res.bind_eq_ok] at h
      obtain ⟨r, _, h⟩ := h
      cases h; rfl
    · cases b with
      | true => exact trivial
      | false =>
        rw [if_neg Bool.false_ne_true, KeepsRun]
        refine KeepsRun.bind (p := Prog.act _ _ _) ⟨fun s s' b h => ?_, fun _ => trivial⟩ fun es => addAll_keeps S es
        unfold eraseLevels at h
        simp only at h
        split at h <;> cases h <;> rfl

theorem wstep_run {S : Sizing} {s s' : BG K} {w w' : WPC K.T} (h : wstep S s w = .ok (s', w')) : s'.run = s.run := by
  cases w with
  | top => simp only [wstep] at h; cases h; rfl
  | test => simp only [wstep] at h; cases h; rfl
  | build => simp only [wstep] at h; cases h; rfl
  | search t =>
    simp only [wstep] at h
    split at h
    · cases h
    · cases h; rfl
  | merge t i j =>
    simp only [wstep] at h
    split at h
    · split at h
      · cases h
      · cases h; rfl
      · cases h; rfl
    · cases h; rfl
  | store t i =>
    simp only [wstep] at h
    rw [Res.bind_eq_ok] at h
    obtain ⟨ks, _, h⟩ := h
    cases h; rfl
  | finish => simp only [wstep] at h; cases h; rfl
  | stopped => simp only [wstep] at h; cases h; rfl

theorem wstep2_run {S : Sizing} {s : BG K} {w : WPC K.T} (h : s.run = true) : wstep2 S s w = wstep S s w := by
  cases w <;> simp [wstep2, h]

/-- The graph `y` while the worker of the other one has ended: not yet constructed, destroyed, or in a state (of a
call) it could have reached alone. -/
def SoloInv (S : Sizing) (n : Bool → Nat) (y : Bool) (t : Two K) : Prop :=
  t.alive (!y) = false ∧ t.wk (!y) = some .stopped ∧
  ((t.wk y = none ∧ t.alive y = false ∧ t.ops y = [] ∧ t.cur = none) ∨
   (t.wk y ≠ none ∧ t.alive y = false ∧ t.cur = none) ∨
   (t.run = true ∧ t.alive y = true ∧ ∃ w, t.wk y = some w ∧
     ((t.cur = none ∧ BG.Reach true K S (n y) (t.ops y) (t.view y) w) ∨
      ∃ o p s0 w0, t.cur = some (y, o, p) ∧ KeepsRun p ∧ BG.Reach true K S (n y) (t.ops y) s0 w0 ∧
        Exec (worker K S) (BG.call true S o) s0 w0 p (t.view y) w)))

theorem SoloInv.step {S : Sizing} {n : Bool → Nat} {y : Bool} {t t' : Two K} (h : SoloInv S n y t)
    (hs : Two.Step S n t t') : SoloInv S n y t' := by
  obtain ⟨h1, h2, h3⟩ := h
  have hne : (!y) ≠ y := by cases y <;> decide
  cases hs with
  | @ctor x hw hc hn =>
    have hx : x = y := by
      by_contra hxy
      have : x = !y := by cases x <;> cases y <;> simp_all
      rw [this, h2] at hw; cases hw
    subst hx
    refine ⟨by simpa [hne] using h1, by simpa [hne] using h2, Or.inr (Or.inr ⟨rfl, by simp, .top, by simp, Or.inl ⟨hc, ?_⟩⟩)⟩
    rcases h3 with ⟨_, _, h5, _⟩ | ⟨h4, _⟩ | ⟨_, _, w, h4, _⟩
    · have hv : ∀ wk alive cur ops, Two.view ⟨Function.update t.obj x (init K true S (n x)), wk, alive, false, true, cur, ops⟩ x =
          init K true S (n x) := by
        intros; simp only [view, Function.update_self]; rfl
      rw [hv]
      show BG.Reach true K S (n x) (t.ops x) _ _
      rw [h5]
      exact .start hn
    · exact absurd hw h4
    · rw [h4] at hw; cases hw
  | @dtor x ha hc hn =>
    have hx : x = y := by
      by_contra hxy
      have : x = !y := by cases x <;> cases y <;> simp_all
      rw [this, h1] at ha; cases ha
    subst hx
    rcases h3 with ⟨_, h4, _⟩ | ⟨_, h4, _⟩ | ⟨_, _, w, h4, _⟩
    · rw [h4] at ha; cases ha
    · rw [h4] at ha; cases ha
    · exact ⟨by simpa [hne] using h1, h2, Or.inr (Or.inl ⟨by simp [h4], by simp, hc⟩)⟩
  | @work x w w' s' hw hs =>
    by_cases hx : x = y
    · subst hx
      refine ⟨h1, by simpa [hne, put] using h2, ?_⟩
      rcases h3 with ⟨h4, _⟩ | ⟨h4, h5, h6⟩ | ⟨hr, ha, w1, h4, h5⟩
      · rw [h4] at hw; cases hw
      · exact Or.inr (Or.inl ⟨by simp, h5, h6⟩)
      · rw [h4] at hw; cases hw
        rw [wstep2_run (by exact hr)] at hs
        have hrun : s'.run = true := (wstep_run hs).trans hr
        have hv : Two.view { t.put x s' with wk := Function.update t.wk x (some w') } x = s' := by
          simp [view, put]
        refine Or.inr (Or.inr ⟨hrun, ha, w', by simp, ?_⟩)
        rw [hv]
        rcases h5 with ⟨h5, h6⟩ | ⟨o, p, s0, w0, h5, h6, h7, h8⟩
        · exact Or.inl ⟨h5, .work h6 hs⟩
        · exact Or.inr ⟨o, p, s0, w0, h5, h6, h7, .worker h8 hs⟩
    · have hx : x = !y := by cases x <;> cases y <;> simp_all
      subst hx
      rw [h2] at hw; cases hw
      simp only [wstep2, wstep] at hs
      cases hs
      have hv : Two.view { t.put (!y) (t.view (!y)) with wk := Function.update t.wk (!y) (some .stopped) } y = t.view y := by
        simp [view, put, hne.symm]
      have hw' : Function.update t.wk (!y) (some .stopped) y = t.wk y := by simp [hne.symm]
      refine ⟨h1, by simp, ?_⟩
      rcases h3 with ⟨h4, h5⟩ | ⟨h4, h5, h6⟩ | ⟨hr, ha, w1, h4, h5⟩
      · exact Or.inl ⟨hw'.trans h4, h5⟩
      · exact Or.inr (Or.inl ⟨fun h => h4 (hw'.symm.trans h), h5, h6⟩)
      · refine Or.inr (Or.inr ⟨hr, ha, w1, hw'.trans h4, ?_⟩)
        rw [hv]
        exact h5
  | @begin x o ha hc =>
    have hx : x = y := by
      by_contra hxy
      have : x = !y := by cases x <;> cases y <;> simp_all
      rw [this, h1] at ha; cases ha
    subst hx
    rcases h3 with ⟨_, h4, _⟩ | ⟨_, h4, _⟩ | ⟨hr, _, w, h4, h5⟩
    · rw [h4] at ha; cases ha
    · rw [h4] at ha; cases ha
    · refine ⟨h1, h2, Or.inr (Or.inr ⟨hr, ha, w, h4, Or.inr ⟨o, _, t.view x, w, rfl, call_keeps S o, ?_, .start⟩⟩)⟩
      rcases h5 with ⟨_, h5⟩ | ⟨o', p, s0, w0, h5, _⟩
      · exact h5
      · rw [h5] at hc; cases hc
  | @caller x o p p' s' hc hs =>
    rcases h3 with ⟨_, _, _, h4⟩ | ⟨_, _, h4⟩ | ⟨hr, ha, w, h4, ⟨h5, _⟩ | ⟨o', p1, s0, w0, h5, h6, h7, h8⟩⟩
    · rw [h4] at hc; cases hc
    · rw [h4] at hc; cases hc
    · rw [h5] at hc; cases hc
    · rw [h5] at hc; cases hc
      have hv : Two.view { t.put y s' with cur := some (y, o, p') } y = s' := by
        simp [view, put]
      have hk : KeepsRun p' ∧ s'.run = true := by
        cases hs with
        | act hf => exact ⟨h6.2 _, (h6.1 _ _ _ hf).trans hr⟩
        | pass _ => exact ⟨h6, hr⟩
      refine ⟨h1, h2, Or.inr (Or.inr ⟨hk.2, ha, w, h4, Or.inr ⟨o, p', s0, w0, rfl, hk.1, h7, ?_⟩⟩)⟩
      rw [hv]
      exact .caller h8 hs
  | @finish x o hc =>
    rcases h3 with ⟨_, _, _, h4⟩ | ⟨_, _, h4⟩ | ⟨hr, ha, w, h4, ⟨h5, _⟩ | ⟨o', p1, s0, w0, h5, h6, h7, h8⟩⟩
    · rw [h4] at hc; cases hc
    · rw [h4] at hc; cases hc
    · rw [h5] at hc; cases hc
    · rw [h5] at hc; cases hc
      refine ⟨h1, h2, Or.inr (Or.inr ⟨hr, ha, w, h4, Or.inl ⟨rfl, ?_⟩⟩)⟩
      show BG.Reach true K S (n y) (Function.update t.ops y (t.ops y ++ [o]) y) _ _
      rw [Function.update_self]
      exact .call h7 h8

/-- A graph that does not exist yet has made no calls. -/
theorem fresh_ops {S : Sizing} {n : Bool → Nat} {t : Two K} (h : Two.Reach S n t) (y : Bool) :
    (t.wk y = none → t.alive y = false ∧ t.ops y = [] ∧ ∀ o p, t.cur ≠ some (y, o, p)) := by
  unfold Two.Reach at h
  induction h with
  | refl => intro _; exact ⟨rfl, rfl, fun _ _ h => by cases h⟩
  | @tail t1 t2 _ hs ih =>
    cases hs with
    | @ctor x hw hc hn =>
      intro hy
      by_cases hx : y = x
      · subst hx; simp at hy
      · simp only [Function.update_of_ne hx] at hy ⊢
        exact ih hy
    | @dtor x ha hc hn =>
      intro hy
      obtain ⟨h1, h2⟩ := ih hy
      by_cases hx : y = x
      · subst hx; rw [h1] at ha; cases ha
      · simp only [Function.update_of_ne hx]
        exact ⟨h1, h2⟩
    | @work x w w' s' hw hs =>
      intro hy
      by_cases hx : y = x
      · subst hx; simp at hy
      · simp only [Function.update_of_ne hx] at hy
        exact ih hy
    | @begin x o ha hc =>
      intro hy
      obtain ⟨h1, h2, h3⟩ := ih hy
      refine ⟨h1, h2, fun o' p h => ?_⟩
      cases h
      rw [h1] at ha; cases ha
    | @caller x o p p' s' hc hs =>
      intro hy
      obtain ⟨h1, h2, h3⟩ := ih hy
      refine ⟨h1, h2, fun o' p h => ?_⟩
      cases h
      exact h3 _ _ hc
    | @finish x o hc =>
      intro hy
      obtain ⟨h1, h2, h3⟩ := ih hy
      have hx : y ≠ x := by rintro rfl; exact h3 _ _ hc
      simp only [Function.update_of_ne hx]
      exact ⟨h1, h2, fun _ _ h => by cases h⟩

/-- C39 when the graphs are used one after the other and the first worker has ended before the second graph is
constructed: from then on, on every schedule, the second graph is in a state it could have reached alone, and the
first worker does nothing.  Missing: graphs that exist at the same time, or a second graph constructed before the first worker has
noticed its end (`C39_ctor_refuted`, `C39_worker_refuted`, `C39_dtor_refuted`, `C39_zombie_refuted`). -/
theorem C39_sequential_partial {S : Sizing} {n : Bool → Nat} {t0 t : Two K} (y : Bool) (hr : Two.Reach S n t0)
    (hdead : t0.alive (!y) = false) (hend : t0.wk (!y) = some .stopped) (hnew : t0.wk y = none)
    (hidle : t0.cur = none) (hs : Relation.ReflTransGen (Two.Step S n) t0 t) :
    t.wk (!y) = some .stopped ∧
      ∀ w, t.alive y = true → t.cur = none → t.wk y = some w → BG.Reach true K S (n y) (t.ops y) (t.view y) w := by
  have h0 : SoloInv S n y t0 := by
    obtain ⟨h1, h2, _⟩ := fresh_ops hr y hnew
    exact ⟨hdead, hend, Or.inl ⟨hnew, h1, h2, hidle⟩⟩
  have h : SoloInv S n y t := by
    induction hs with
    | refl => exact h0
    | tail _ hs ih => exact ih.step hs
  obtain ⟨_, h2, h3⟩ := h
  refine ⟨h2, fun w ha hc hw => ?_⟩
  rcases h3 with ⟨h4, _⟩ | ⟨_, h4, _⟩ | ⟨_, _, w1, h4, ⟨_, h5⟩ | ⟨o, p, s0, w0, h5, _⟩⟩
  · rw [h4] at hw; cases hw
  · rw [h4] at ha; cases ha
  · rw [h4] at hw; cases hw; exact h5
  · rw [h5] at hc; cases hc

/-- Non-vacuity: the first graph is used and destroyed, its worker ends, the second is constructed and used. -/
example : ∃ t0 t : Two refK2, Two.Reach realSizing (fun _ => 5) t0 ∧ t0.alive true = false ∧
    t0.wk true = some .stopped ∧ t0.wk false = none ∧ t0.cur = none ∧ t0.ops true = [.add (0, 1), .add (1, 2)] ∧
    Relation.ReflTransGen (Two.Step realSizing (fun _ => 5)) t0 t ∧ t.alive false = true ∧ t.cur = none ∧
    t.ops false = [.add (0, 1), .add (1, 2)] := by
  have hx : (match tplay hybSizing (fun _ => 5) ([.ctor true] ++ tadds true ++ List.replicate 10 (.work true) ++
      [.dtor true, .work true, .work true]) (Two.start refK2 hybSizing) with
    | some t0 => !t0.alive true && decide (t0.wk true = some .stopped) && decide (t0.wk false = none) && t0.cur.isNone &&
        decide (t0.ops true = [.add (0, 1), .add (1, 2)]) &&
        match tplay hybSizing (fun _ => 5) ([.ctor false] ++ tadds false) t0 with
        | some t => t.alive false && t.cur.isNone && decide (t.ops false = [.add (0, 1), .add (1, 2)])
        | none => false
    | none => false) = true := by decide +kernel
  rw [realSizing_eq_hyb]
  split at hx
  · rename_i t0 h0
    simp only [Bool.and_eq_true, decide_eq_true_eq, Option.isNone_iff_eq_none, Bool.not_eq_true'] at hx
    obtain ⟨⟨⟨⟨⟨h1, h2⟩, h3⟩, h4⟩, h5⟩, h6⟩ := hx
    split at h6
    · rename_i t ht
      simp only [Bool.and_eq_true, decide_eq_true_eq, Option.isNone_iff_eq_none] at h6
      exact ⟨t0, t, tplay_sound _ h0, h1, h2, h3, h4, h5, tplay_sound _ ht, h6.1.1, h6.1.2, h6.2⟩
    · cases h6
  · cases hx

end DK2
