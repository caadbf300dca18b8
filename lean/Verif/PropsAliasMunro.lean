import Verif.AliasMunro
import Verif.PropsMunro
/-!
# Copies of a `DKtree_delay_munro` (C80)
-/

namespace DK2

/-- A program: copy object `i` (the copy is the next object), or call a method of object `i`. -/
inductive MCmd where
  | copy (i : Nat)
  | call (i : Nat) (op : Op)
  deriving DecidableEq

namespace MWorld

/-- One command; the copy constructor copies every member (DKtree_delay_.hpp:51-65, 90-91). -/
def step (P : MPar) (w : MWorld) : MCmd → Res MWorld
  | .copy i => do
    let o ← rd w.objs i
    .ok { w with objs := w.objs ++ [o] }
  | .call i op => w.call P i op

/-- A program from a given state. -/
def runFrom (P : MPar) : MWorld → List MCmd → Res MWorld
  | w, [] => .ok w
  | w, c :: cs => do
    let w' ← w.step P c
    runFrom P w' cs

/-- A program that starts by constructing a graph over `n` vertices. -/
def run (P : MPar) (n : Nat) (cs : List MCmd) : Res MWorld := do
  let o ← HM.create P n
  runFrom P ⟨[], [o]⟩ cs

/-- Object `i` answers every query as the graph `d` does. -/
def Like (P : MPar) (w : MWorld) (i : Nat) (d : DKM) : Prop :=
  ∃ o, w.objs[i]? = some o ∧ (∀ e, o.contains P w.heap e = d.contains P e) ∧
    (∀ x, o.listNeighbour P w.heap x = d.listNeighbour P x) ∧ o.nTotal = d.numberEdges ∧ o.nv = d.numberNodes

end MWorld

/-- The specification: the calls every object has seen, those of its source before the copy included. -/
def hists : List MCmd → List (List Op) → List (List Op)
  | [], L => L
  | .copy i :: cs, L => hists cs (L ++ (L[i]?).toList)
  | .call i op :: cs, L => hists cs (L.modify i (fun l => l ++ [op]))

/-- Every object named in the program exists. -/
def Named : List MCmd → Nat → Prop
  | [], _ => True
  | .copy i :: cs, m => i < m ∧ Named cs (m + 1)
  | .call i _ :: cs, m => i < m ∧ Named cs m

instance instDecidableNamed : ∀ (cs : List MCmd) (m : Nat), Decidable (Named cs m)
  | [], _ => inferInstanceAs (Decidable True)
  | .copy _ :: cs, m => have := instDecidableNamed cs (m + 1); inferInstanceAs (Decidable (_ ∧ _))
  | .call _ _ :: cs, m => have := instDecidableNamed cs m; inferInstanceAs (Decidable (_ ∧ _))

/-- Copies are made only of graphs that, after the calls they have seen, have no merge in progress. -/
def CopiesIdle (P : MPar) (n : Nat) : List MCmd → List (List Op) → Prop
  | [], _ => True
  | .copy i :: cs, L => (∀ ops, L[i]? = some ops → ∀ d, DKM.run P n ops = .ok d → d.us.finish = true) ∧
      CopiesIdle P n cs (L ++ (L[i]?).toList)
  | .call i op :: cs, L => CopiesIdle P n cs (L.modify i (fun l => l ++ [op]))

/-- C80: copies of a graph are independent of it and of each other: the program returns if each object's calls return alone,
and every object answers as if only its own calls had been made. -/
def C80_Full (P : MPar) : Prop :=
  ∀ (n : Nat) (cs : List MCmd), Named cs 1 →
    (∀ ops ∈ hists cs [[]], ∃ d, DKM.run P n ops = .ok d) →
    ∃ w, MWorld.run P n cs = .ok w ∧ ∀ (i : Nat) (ops : List Op), (hists cs [[]])[i]? = some ops →
      ∃ d, DKM.run P n ops = .ok d ∧ w.Like P i d

namespace MWorld

/-- Every object is in the state its own calls lead to. -/
structure Tracks (P : MPar) (n : Nat) (L : List (List Op)) (w : MWorld) : Prop where
  apart : w.Apart
  len : w.objs.length = L.length
  view : ∀ (i : Nat) o ops, w.objs[i]? = some o → L[i]? = some ops → DKM.run P n ops = .ok (o.view w.heap)

theorem run_snoc (P : MPar) (n : Nat) (ops : List Op) (op : Op) :
    DKM.run P n (ops ++ [op]) = (DKM.run P n ops >>= fun d => d.step P op) := by
  have h : ∀ (ops : List Op) (d : DKM), DKM.runFrom P d (ops ++ [op]) = (DKM.runFrom P d ops >>= fun d => d.step P op) := by
    intro ops
    induction ops with
    | nil =>
      intro d
      simp only [List.nil_append, DKM.runFrom, Res.ok_bind]
      cases d.step P op <;> rfl
    | cons o ops ih =>
      intro d
      simp only [List.cons_append, DKM.runFrom]
      cases d.step P o with
      | ok d' => simp only [Res.ok_bind]; exact ih d'
      | _ => rfl
  unfold DKM.run
  cases DKM.create P n with
  | ok d => simp only [Res.ok_bind]; exact h ops d
  | _ => rfl

theorem Tracks.call {P : MPar} {n : Nat} {L : List (List Op)} {w : MWorld} (h : Tracks P n L w) {i : Nat} (hi : i < L.length)
    {op : Op} : Res.Rel (fun (w' : MWorld) (_ : DKM) => Tracks P n (L.modify i (fun l => l ++ [op])) w') (w.call P i op)
      (DKM.run P n (L[i] ++ [op])) := by
  obtain ⟨o, ho⟩ : ∃ o, w.objs[i]? = some o := ⟨_, List.getElem?_eq_getElem (by rw [h.len]; exact hi)⟩
  have hL : L[i]? = some L[i] := List.getElem?_eq_getElem hi
  have hrun : DKM.run P n (L[i] ++ [op]) = (o.view w.heap).step P op := by
    rw [run_snoc, h.view i o _ ho hL, Res.ok_bind]
  have hrel := call_rel P h.apart ho op
  rw [← hrun] at hrel
  cases hw : w.call P i op with
  | ok w' =>
    rw [hw] at hrel
    obtain ⟨d, hd, a1, a2, o', ho', rfl⟩ := hrel.ok_left
    rw [hd]
    refine .ok ⟨a1, by rw [a2.len, h.len, List.length_modify], ?_⟩
    intro j p ops hp hops
    by_cases hj : j = i
    · subst hj
      rw [ho'] at hp; cases hp
      rw [List.getElem?_modify_eq, hL] at hops
      cases hops
      exact hd
    · rw [List.getElem?_modify_ne _ _ (Ne.symm hj)] at hops
      rw [a2.other j hj] at hp
      rw [a2.view j p hj hp]
      exact h.view j p ops hp hops
  | throws => rw [hw] at hrel; revert hrel; generalize DKM.run P n (L[i] ++ [op]) = z; intro hrel; cases hrel; exact .throws
  | ub => rw [hw] at hrel; revert hrel; generalize DKM.run P n (L[i] ++ [op]) = z; intro hrel; cases hrel; exact .ub
  | abort => rw [hw] at hrel; revert hrel; generalize DKM.run P n (L[i] ++ [op]) = z; intro hrel; cases hrel; exact .abort
  | diverge => rw [hw] at hrel; revert hrel; generalize DKM.run P n (L[i] ++ [op]) = z; intro hrel; cases hrel; exact .diverge

theorem Tracks.copy {P : MPar} {n : Nat} {L : List (List Op)} {w : MWorld} (h : Tracks P n L w) {i : Nat} (hi : i < L.length)
    (hidle : ∀ ops, L[i]? = some ops → ∀ d, DKM.run P n ops = .ok d → d.us.finish = true) :
    ∃ w', w.step P (.copy i) = .ok w' ∧ Tracks P n (L ++ (L[i]?).toList) w' := by
  obtain ⟨o, ho⟩ : ∃ o, w.objs[i]? = some o := ⟨_, List.getElem?_eq_getElem (by rw [h.len]; exact hi)⟩
  have hL : L[i]? = some L[i] := List.getElem?_eq_getElem hi
  have hf : o.us.finish = true := hidle _ hL _ (h.view i o _ ho hL)
  refine ⟨{ w with objs := w.objs ++ [o] }, by simp only [step, rd_of ho, Res.ok_bind], copy_apart h.apart ho hf, ?_, ?_⟩
  · simp [h.len, hL]
  · intro j p ops hp hops
    rw [hL] at hops
    simp only [Option.toList_some] at hops
    simp only at hp
    by_cases hj : j < w.objs.length
    · rw [List.getElem?_append_left hj] at hp
      rw [List.getElem?_append_left (by rw [← h.len]; exact hj)] at hops
      exact h.view j p ops hp hops
    · rw [List.getElem?_append_right (by omega)] at hp
      rw [List.getElem?_append_right (by rw [← h.len]; omega), ← h.len] at hops
      have h0 : j - w.objs.length = 0 := by
        by_contra hc
        rw [List.getElem?_eq_none (by simp; omega)] at hp
        cases hp
      rw [h0] at hp hops
      cases hp; cases hops
      exact h.view i o _ ho hL

/-- Later calls only extend the histories. -/
theorem hists_prefix : ∀ (cs : List MCmd) {L : List (List Op)} {i : Nat} {ops : List Op}, L[i]? = some ops →
    ∃ t, (hists cs L)[i]? = some (ops ++ t)
  | [], L, i, ops, h => ⟨[], by simpa [hists] using h⟩
  | .copy j :: cs, L, i, ops, h => by
    refine hists_prefix cs (L := L ++ (L[j]?).toList) ?_
    rw [List.getElem?_append_left (List.getElem?_eq_some_iff.1 h).1]; exact h
  | .call j op :: cs, L, i, ops, h => by
    by_cases hj : j = i
    · subst hj
      obtain ⟨t, ht⟩ := hists_prefix cs (L := L.modify j (fun l => l ++ [op])) (i := j) (ops := ops ++ [op]) (by
        rw [List.getElem?_modify_eq, h]; rfl)
      exact ⟨op :: t, by simpa [hists] using ht⟩
    · exact hists_prefix cs (L := L.modify j (fun l => l ++ [op])) (by
        rw [List.getElem?_modify_ne _ _ hj]; exact h)

theorem run_prefix {P : MPar} {n : Nat} {ops t : List Op} (h : ∃ d, DKM.run P n (ops ++ t) = .ok d) :
    ∃ d, DKM.run P n ops = .ok d := by
  obtain ⟨d, hd⟩ := h
  induction t generalizing ops with
  | nil => exact ⟨d, by simpa using hd⟩
  | cons o t ih =>
    obtain ⟨d', hd'⟩ := ih (ops := ops ++ [o]) (by simpa using hd)
    rw [run_snoc, Res.bind_eq_ok] at hd'
    obtain ⟨d1, h1, _⟩ := hd'
    exact ⟨d1, h1⟩

theorem Tracks.runFrom_ok {P : MPar} {n : Nat} : ∀ (cs : List MCmd) {L : List (List Op)} {w : MWorld}, Tracks P n L w →
    CopiesIdle P n cs L → ∀ {w'}, runFrom P w cs = .ok w' → Tracks P n (hists cs L) w'
  | [], L, w, h, _, w', hr => by cases hr; exact h
  | .copy i :: cs, L, w, h, hc, w', hr => by
    simp only [runFrom] at hr
    rw [Res.bind_eq_ok] at hr
    obtain ⟨w1, h1, h2⟩ := hr
    have hi : i < L.length := by
      simp only [step] at h1
      rw [Res.bind_eq_ok] at h1
      obtain ⟨o, ho, _⟩ := h1
      rw [← h.len]
      exact (List.getElem?_eq_some_iff.1 (rd_eq_ok.1 ho)).1
    obtain ⟨w2, h3, h4⟩ := h.copy (P := P) hi hc.1
    rw [h1] at h3; cases h3
    exact h4.runFrom_ok cs hc.2 h2
  | .call i op :: cs, L, w, h, hc, w', hr => by
    simp only [runFrom] at hr
    rw [Res.bind_eq_ok] at hr
    obtain ⟨w1, h1, h2⟩ := hr
    simp only [step] at h1
    by_cases hi : i < L.length
    · have := h.call (P := P) hi (op := op)
      rw [h1] at this
      obtain ⟨_, _, h4⟩ := this.ok_left
      exact h4.runFrom_ok cs hc h2
    · exfalso
      have hno : rd w.objs i = .ub := by
        rw [rd, List.getElem?_eq_none (by rw [h.len]; omega)]
      cases op with
      | add e =>
        simp only [MWorld.call, addEdge, unionStep, hno] at h1
        cases h1
      | del e =>
        simp only [MWorld.call, hno] at h1
        cases h1

theorem Tracks.runFrom_total {P : MPar} {n : Nat} : ∀ (cs : List MCmd) {L : List (List Op)} {w : MWorld}, Tracks P n L w →
    CopiesIdle P n cs L → Named cs L.length → (∀ ops ∈ hists cs L, ∃ d, DKM.run P n ops = .ok d) →
    ∃ w', runFrom P w cs = .ok w'
  | [], L, w, h, _, _, _ => ⟨w, rfl⟩
  | .copy i :: cs, L, w, h, hc, hn, ha => by
    obtain ⟨w1, h1, h2⟩ := h.copy (P := P) hn.1 hc.1
    have hil := hn.1
    have hL : L[i]? = some L[i] := List.getElem?_eq_getElem hil
    obtain ⟨w', h3⟩ := h2.runFrom_total cs hc.2 (by simpa [hL] using hn.2) ha
    exact ⟨w', by simp only [runFrom, h1, Res.ok_bind, h3]⟩
  | .call i op :: cs, L, w, h, hc, hn, ha => by
    have hil := hn.1
    have hL : L[i]? = some L[i] := List.getElem?_eq_getElem hil
    obtain ⟨t, ht⟩ := hists_prefix cs (L := L.modify i (fun l => l ++ [op])) (i := i) (ops := L[i] ++ [op]) (by
      rw [List.getElem?_modify_eq, hL]; rfl)
    obtain ⟨d, hd⟩ := run_prefix (ha _ (List.mem_iff_getElem?.2 ⟨i, ht⟩))
    have := h.call (P := P) hn.1 (op := op)
    rw [hd] at this
    obtain ⟨w1, h1, h2⟩ := this.ok_right
    obtain ⟨w', h3⟩ := h2.runFrom_total cs hc (by simpa using hn.2) ha
    exact ⟨w', by simp only [runFrom, step, h1, Res.ok_bind, h3]⟩

theorem create_tracks {P : MPar} {n : Nat} {o : HM} (h : HM.create P n = .ok o) : Tracks P n [[]] ⟨[], [o]⟩ := by
  unfold HM.create at h
  split at h
  · cases h
  · rename_i hn
    cases h
    have h0 : ∀ (i : Nat) (p : HM), ([(⟨0, n, 0, C0.new P.S n, List.replicate RS none, List.replicate RS none, (0, 0),
        DKM.idleUS, none, 0⟩ : HM)] : List HM)[i]? = some p → i = 0 ∧ p = ⟨0, n, 0, C0.new P.S n, List.replicate RS none,
        List.replicate RS none, (0, 0), DKM.idleUS, none, 0⟩ := by
      intro i p hp
      cases i with
      | zero => cases hp; exact ⟨rfl, rfl⟩
      | succ i => simp at hp
    refine ⟨⟨?_, ?_⟩, rfl, ?_⟩
    · intro x p hp
      obtain ⟨_, rfl⟩ := h0 x p hp
      refine ⟨fun a ha => ?_, fun a ha => by cases ha⟩
      simp at ha
    · intro x p hp hf
      obtain ⟨_, rfl⟩ := h0 x p hp
      cases hf
    · intro i p ops hp hops
      obtain ⟨rfl, rfl⟩ := h0 i p hp
      cases hops
      simp only [DKM.run, DKM.create, if_neg hn, Res.ok_bind, DKM.runFrom]
      simp [DKM.init, HM.view, lv, DKM.idleUS]

theorem Tracks.like {P : MPar} {n : Nat} {L : List (List Op)} {w : MWorld} (h : Tracks P n L w) {i : Nat} {ops : List Op}
    (hi : L[i]? = some ops) : ∃ d, DKM.run P n ops = .ok d ∧ w.Like P i d := by
  obtain ⟨o, ho⟩ : ∃ o, w.objs[i]? = some o :=
    ⟨_, List.getElem?_eq_getElem (by rw [h.len]; exact (List.getElem?_eq_some_iff.1 hi).1)⟩
  have hv := (h.apart.valid i o ho).1
  exact ⟨_, h.view i o ops ho hi, o, ho, fun e => contains_rel P hv e, fun x => listNeighbour_rel P hv x, rfl, rfl⟩

end MWorld

open MWorld

/-- C80, for programs in which only graphs without a merge in progress are copied: whatever the program does later, every object
answers as if only its own calls had been made; and the program returns if each object's calls return alone. -/
theorem C80_idle_partial (P : MPar) (n : Nat) (cs : List MCmd) (hidle : CopiesIdle P n cs [[]]) :
    (∀ w, MWorld.run P n cs = .ok w → ∀ (i : Nat) (ops : List Op), (hists cs [[]])[i]? = some ops →
      ∃ d, DKM.run P n ops = .ok d ∧ w.Like P i d) ∧
    (Named cs 1 → (∀ ops ∈ hists cs [[]], ∃ d, DKM.run P n ops = .ok d) → ∃ w, MWorld.run P n cs = .ok w) := by
  unfold MWorld.run
  constructor
  · intro w hw i ops hi
    rw [Res.bind_eq_ok] at hw
    obtain ⟨o, ho, hw⟩ := hw
    exact ((create_tracks ho).runFrom_ok cs hidle hw).like hi
  · intro hn ha
    have h0 : ∃ o, HM.create P n = .ok o := by
      obtain ⟨t, ht⟩ := hists_prefix cs (L := [[]]) (i := 0) (ops := []) rfl
      obtain ⟨d, hd⟩ := ha _ (List.mem_iff_getElem?.2 ⟨0, ht⟩)
      unfold HM.create
      by_cases h1 : n = 1
      · subst h1
        simp [DKM.run, DKM.create] at hd
      · rw [if_neg h1]; exact ⟨_, rfl⟩
    obtain ⟨o, ho⟩ := h0
    rw [ho, Res.ok_bind]
    exact (create_tracks ho).runFrom_total cs hidle hn ha

/-- The program of the counterexample: 18 insertions on 256 vertices leave a merge in progress; the graph is copied; two insertions
through the copy end the merge, in the array of the original; then the original goes on. -/
def wCopy : List MCmd :=
  DKM.w18.map (fun e => MCmd.call 0 (.add e)) ++
    [.copy 0, .call 1 (.add (0, 1)), .call 1 (.add (1, 2)), .call 0 (.add (1, 2))]

theorem wCopy_run (nd : Bool) : MWorld.run (DKM.real 2 nd) 256 wCopy = .ub := by
  rw [DKM.real_eq_256]
  have h : (match MWorld.run (DKM.P256 nd) 256 wCopy with
      | .ub => true
      | _ => false) = true := by
    cases nd <;> decide +kernel
  revert h
  generalize MWorld.run (DKM.P256 nd) 256 wCopy = q
  cases q <;> simp

/-- Copies of a graph with a merge in progress are not independent: the next insertion through the original dereferences a null
pointer. -/
theorem C80_refuted (nd : Bool) : ¬ C80_Full (DKM.real 2 nd) := by
  intro hfull
  have hx : (hists wCopy [[]]).all (fun ops => DK.check (DKM.run (DKM.P256 nd) 256 ops) (fun _ => true)) = true := by
    cases nd <;> decide +kernel
  obtain ⟨w, hw, _⟩ := hfull 256 wCopy (by decide) (fun ops hops => by
    obtain ⟨d, hd, _⟩ := DK.check_iff.1 (List.all_eq_true.1 hx ops hops)
    exact ⟨d, by rw [DKM.real_eq_256]; exact hd⟩)
  rw [wCopy_run] at hw
  cases hw

/-- A program that meets the hypotheses: the copy is made once the merge has ended, and then both objects insert, each of them
starting a merge of trees they share. -/
def wIdle : List MCmd :=
  (DKM.w18 ++ [(0, 1), (1, 2)]).map (fun e => MCmd.call 0 (.add e)) ++ [.copy 0] ++
    (List.range 8).map (fun i => .call 1 (.add (i + 9, i))) ++ (List.range 8).map (fun i => .call 0 (.add (i + 9, 3 * i)))

example (nd : Bool) : CopiesIdle (DKM.real 2 nd) 256 wIdle [[]] ∧ Named wIdle 1 ∧
    ∃ w, MWorld.run (DKM.real 2 nd) 256 wIdle = .ok w ∧ w.objs.length = 2 ∧ 3 ≤ w.heap.length := by
  have hx : DK.check (DKM.run (DKM.P256 nd) 256 (DK.inserts (DKM.w18 ++ [(0, 1), (1, 2)]))) (fun d => d.us.finish) = true := by
    cases nd <;> decide +kernel
  have hy : (match MWorld.run (DKM.P256 nd) 256 wIdle with
      | .ok w => decide (w.objs.length = 2 ∧ 3 ≤ w.heap.length)
      | _ => false) = true := by
    cases nd <;> decide +kernel
  rw [← DKM.real_eq_256] at hx hy
  refine ⟨?_, by decide, ?_⟩
  · obtain ⟨d, h1, h2⟩ := DK.check_iff.1 hx
    have : CopiesIdle (DKM.real 2 nd) 256 wIdle [[]] ↔
        (∀ ops, some (DK.inserts (DKM.w18 ++ [(0, 1), (1, 2)])) = some ops → ∀ d, DKM.run (DKM.real 2 nd) 256 ops = .ok d →
          d.us.finish = true) ∧ True := Iff.rfl
    rw [this]
    refine ⟨?_, trivial⟩
    intro ops hops d' hd'
    cases hops
    rw [h1] at hd'; cases hd'
    exact h2
  · revert hy
    cases MWorld.run (DKM.real 2 nd) 256 wIdle with
    | ok w => intro hy; exact ⟨w, rfl, of_decide_eq_true hy⟩
    | _ => intro hy; cases hy

end DK2
