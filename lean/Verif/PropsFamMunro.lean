import Verif.PropsAliasMunro
/-!
# Programs with several `DKtree_delay_munro` graphs (C84)
-/

namespace DK2

/-- A program: construct a graph over `n` vertices (it becomes the next object), copy object `i` (likewise), or call a method
of object `i`. -/
inductive MFam where
  | new (n : Nat)
  | copy (i : Nat)
  | call (i : Nat) (op : Op)
  deriving DecidableEq

namespace MWorld

/-- One command (constructor: DKtree_delay_.hpp:69-76). -/
def famStep (P : MPar) (w : MWorld) : MFam → Res MWorld
  | .new n => do
    let o ← HM.create P n
    .ok { w with objs := w.objs ++ [o] }
  | .copy i => w.step P (.copy i)
  | .call i op => w.call P i op

/-- A program from a given state. -/
def famFrom (P : MPar) : MWorld → List MFam → Res MWorld
  | w, [] => .ok w
  | w, c :: cs => do
    let w' ← w.famStep P c
    famFrom P w' cs

/-- A program, from an empty heap. -/
def fam (P : MPar) (cs : List MFam) : Res MWorld := famFrom P ⟨[], []⟩ cs

end MWorld

/-- The specification: for every object the number of vertices and the calls it has seen, those of its source before the copy
included. -/
def famHists : List MFam → List (Nat × List Op) → List (Nat × List Op)
  | [], L => L
  | .new n :: cs, L => famHists cs (L ++ [(n, [])])
  | .copy i :: cs, L => famHists cs (L ++ (L[i]?).toList)
  | .call i op :: cs, L => famHists cs (L.modify i (fun l => (l.1, l.2 ++ [op])))

/-- Every object named in the program exists. -/
def FamNamed : List MFam → Nat → Prop
  | [], _ => True
  | .new _ :: cs, m => FamNamed cs (m + 1)
  | .copy i :: cs, m => i < m ∧ FamNamed cs (m + 1)
  | .call i _ :: cs, m => i < m ∧ FamNamed cs m

instance instDecidableFamNamed : ∀ (cs : List MFam) (m : Nat), Decidable (FamNamed cs m)
  | [], _ => inferInstanceAs (Decidable True)
  | .new _ :: cs, m => instDecidableFamNamed cs (m + 1)
  | .copy _ :: cs, m => have := instDecidableFamNamed cs (m + 1); inferInstanceAs (Decidable (_ ∧ _))
  | .call _ _ :: cs, m => have := instDecidableFamNamed cs m; inferInstanceAs (Decidable (_ ∧ _))

/-- Copies are made only of graphs that, after the calls they have seen, have no merge in progress. -/
def FamIdle (P : MPar) : List MFam → List (Nat × List Op) → Prop
  | [], _ => True
  | .new n :: cs, L => FamIdle P cs (L ++ [(n, [])])
  | .copy i :: cs, L => (∀ l, L[i]? = some l → ∀ d, DKM.run P l.1 l.2 = .ok d → d.us.finish = true) ∧
      FamIdle P cs (L ++ (L[i]?).toList)
  | .call i op :: cs, L => FamIdle P cs (L.modify i (fun l => (l.1, l.2 ++ [op])))

/-- The program makes no copies. -/
def NoCopies (cs : List MFam) : Prop := ∀ i, .copy i ∉ cs

theorem NoCopies.idle {P : MPar} : ∀ {cs : List MFam} {L : List (Nat × List Op)}, NoCopies cs → FamIdle P cs L
  | [], _, _ => trivial
  | .new n :: cs, L, h => NoCopies.idle (cs := cs) (L := L ++ [(n, [])]) (fun i hi => h i (by simp [hi]))
  | .copy i :: cs, L, h => absurd (List.mem_cons_self) (h i)
  | .call i op :: cs, L, h => NoCopies.idle (cs := cs) (L := L.modify i (fun l => (l.1, l.2 ++ [op])))
      (fun j hj => h j (by simp [hj]))

namespace MWorld

/-- Every object is in the state its own calls lead to. -/
structure FTracks (P : MPar) (L : List (Nat × List Op)) (w : MWorld) : Prop where
  apart : w.Apart
  len : w.objs.length = L.length
  view : ∀ (i : Nat) o l, w.objs[i]? = some o → L[i]? = some l → DKM.run P l.1 l.2 = .ok (o.view w.heap)

theorem FTracks.call {P : MPar} {L : List (Nat × List Op)} {w : MWorld} (h : FTracks P L w) {i : Nat} (hi : i < L.length)
    {op : Op} : Res.Rel (fun (w' : MWorld) (_ : DKM) => FTracks P (L.modify i (fun l => (l.1, l.2 ++ [op]))) w')
      (w.call P i op) (DKM.run P L[i].1 (L[i].2 ++ [op])) := by
  obtain ⟨o, ho⟩ : ∃ o, w.objs[i]? = some o := ⟨_, List.getElem?_eq_getElem (by rw [h.len]; exact hi)⟩
  have hL : L[i]? = some L[i] := List.getElem?_eq_getElem hi
  have hrun : DKM.run P L[i].1 (L[i].2 ++ [op]) = (o.view w.heap).step P op := by
    rw [run_snoc, h.view i o _ ho hL, Res.ok_bind]
  have hrel := call_rel P h.apart ho op
  rw [← hrun] at hrel
  generalize DKM.run P L[i].1 (L[i].2 ++ [op]) = z at hrel hrun
  cases hw : w.call P i op with
  | ok w' =>
    rw [hw] at hrel
    obtain ⟨d, hd, a1, a2, o', ho', rfl⟩ := hrel.ok_left
    rw [hd]
    refine .ok ⟨a1, by rw [a2.len, h.len, List.length_modify], ?_⟩
    intro j p l hp hl
    by_cases hj : j = i
    · subst hj
      rw [ho'] at hp; cases hp
      rw [List.getElem?_modify_eq, hL] at hl
      cases hl
      show DKM.run P L[j].1 (L[j].2 ++ [op]) = _
      rw [run_snoc, h.view j o _ ho hL, Res.ok_bind, ← hrun, hd]
    · rw [List.getElem?_modify_ne _ _ (Ne.symm hj)] at hl
      rw [a2.other j hj] at hp
      rw [a2.view j p hj hp]
      exact h.view j p l hp hl
  | throws => rw [hw] at hrel; cases hrel; exact .throws
  | ub => rw [hw] at hrel; cases hrel; exact .ub
  | abort => rw [hw] at hrel; cases hrel; exact .abort
  | diverge => rw [hw] at hrel; cases hrel; exact .diverge

/-- Appending an object. -/
theorem FTracks.push {P : MPar} {L : List (Nat × List Op)} {w : MWorld} (h : FTracks P L w) {o : HM} {l : Nat × List Op}
    (ha : Apart { w with objs := w.objs ++ [o] }) (hv : DKM.run P l.1 l.2 = .ok (o.view w.heap)) :
    FTracks P (L ++ [l]) { w with objs := w.objs ++ [o] } := by
  refine ⟨ha, by simp [h.len], ?_⟩
  intro j p l' hp hl
  simp only at hp
  by_cases hj : j < w.objs.length
  · rw [List.getElem?_append_left hj] at hp
    rw [List.getElem?_append_left (by rw [← h.len]; exact hj)] at hl
    exact h.view j p l' hp hl
  · rw [List.getElem?_append_right (by omega)] at hp
    rw [List.getElem?_append_right (by rw [← h.len]; omega), ← h.len] at hl
    have h0 : j - w.objs.length = 0 := by
      by_contra hc
      rw [List.getElem?_eq_none (by simp; omega)] at hp
      cases hp
    rw [h0] at hp hl
    cases hp; cases hl
    exact hv

theorem FTracks.copy {P : MPar} {L : List (Nat × List Op)} {w : MWorld} (h : FTracks P L w) {i : Nat} (hi : i < L.length)
    (hidle : ∀ l, L[i]? = some l → ∀ d, DKM.run P l.1 l.2 = .ok d → d.us.finish = true) :
    ∃ w', w.famStep P (.copy i) = .ok w' ∧ FTracks P (L ++ (L[i]?).toList) w' := by
  obtain ⟨o, ho⟩ : ∃ o, w.objs[i]? = some o := ⟨_, List.getElem?_eq_getElem (by rw [h.len]; exact hi)⟩
  have hL : L[i]? = some L[i] := List.getElem?_eq_getElem hi
  have hf : o.us.finish = true := hidle _ hL _ (h.view i o _ ho hL)
  refine ⟨{ w with objs := w.objs ++ [o] }, by simp only [famStep, step, rd_of ho, Res.ok_bind], ?_⟩
  rw [hL]
  exact h.push (copy_apart h.apart ho hf) (h.view i o _ ho hL)

theorem FTracks.new {P : MPar} {L : List (Nat × List Op)} {w : MWorld} (h : FTracks P L w) {n : Nat} {o : HM}
    (ho : HM.create P n = .ok o) : FTracks P (L ++ [(n, [])]) { w with objs := w.objs ++ [o] } := by
  unfold HM.create at ho
  split at ho
  · cases ho
  · rename_i hn
    have hps : ∀ a, some a ∉ o.ps := by
      cases ho; intro a ha; simp at ha
    have htp : o.tp = none := by cases ho; rfl
    have hfin : o.us.finish = true := by cases ho; rfl
    refine h.push ?_ ?_
    · have hget : ∀ (y : Nat) p, (w.objs ++ [o])[y]? = some p → w.objs[y]? = some p ∨ p = o := by
        intro y p hp
        by_cases hy : y < w.objs.length
        · rw [List.getElem?_append_left hy] at hp; exact Or.inl hp
        · rw [List.getElem?_append_right (by omega)] at hp
          right
          have := List.mem_of_getElem? hp
          simpa using this
      constructor
      · intro y p hp
        rcases hget y p hp with hp | rfl
        · exact h.apart.valid y p hp
        · exact ⟨fun a ha => absurd ha (hps a), fun a ha => by rw [htp] at ha; cases ha⟩
      · intro y p hp hfp
        rcases hget y p hp with hp' | rfl
        · obtain ⟨h1, a, h2, h3, h4⟩ := h.apart.pend y p hp' hfp
          refine ⟨h1, a, h2, h3, fun z q hz hq => ?_⟩
          rcases hget z q hq with hq | rfl
          · exact h4 z q hz hq
          · exact ⟨hps a, by rw [htp]; simp⟩
        · rw [hfin] at hfp; cases hfp
    · cases ho
      simp only [DKM.run, DKM.create, if_neg hn, Res.ok_bind, DKM.runFrom]
      simp [DKM.init, HM.view, lv, DKM.idleUS]

/-- Later commands only extend the histories. -/
theorem famHists_prefix : ∀ (cs : List MFam) {L : List (Nat × List Op)} {i : Nat} {l : Nat × List Op}, L[i]? = some l →
    ∃ t, (famHists cs L)[i]? = some (l.1, l.2 ++ t)
  | [], L, i, l, h => ⟨[], by simpa [famHists] using h⟩
  | .new n :: cs, L, i, l, h => by
    refine famHists_prefix cs (L := L ++ [(n, [])]) ?_
    rw [List.getElem?_append_left (List.getElem?_eq_some_iff.1 h).1]; exact h
  | .copy j :: cs, L, i, l, h => by
    refine famHists_prefix cs (L := L ++ (L[j]?).toList) ?_
    rw [List.getElem?_append_left (List.getElem?_eq_some_iff.1 h).1]; exact h
  | .call j op :: cs, L, i, l, h => by
    by_cases hj : j = i
    · subst hj
      obtain ⟨t, ht⟩ := famHists_prefix cs (L := L.modify j (fun l => (l.1, l.2 ++ [op]))) (i := j)
        (l := (l.1, l.2 ++ [op])) (by rw [List.getElem?_modify_eq, h]; rfl)
      exact ⟨op :: t, by simpa [famHists] using ht⟩
    · exact famHists_prefix cs (L := L.modify j (fun l => (l.1, l.2 ++ [op]))) (by
        rw [List.getElem?_modify_ne _ _ hj]; exact h)

theorem FTracks.famFrom_ok {P : MPar} : ∀ (cs : List MFam) {L : List (Nat × List Op)} {w : MWorld}, FTracks P L w →
    FamIdle P cs L → ∀ {w'}, famFrom P w cs = .ok w' → FTracks P (famHists cs L) w'
  | [], L, w, h, _, w', hr => by cases hr; exact h
  | .new n :: cs, L, w, h, hc, w', hr => by
    simp only [famFrom, famStep] at hr
    rw [Res.bind_eq_ok] at hr
    obtain ⟨w1, h1, h2⟩ := hr
    rw [Res.bind_eq_ok] at h1
    obtain ⟨o, ho, h1⟩ := h1
    cases h1
    exact (h.new ho).famFrom_ok cs hc h2
  | .copy i :: cs, L, w, h, hc, w', hr => by
    simp only [famFrom] at hr
    rw [Res.bind_eq_ok] at hr
    obtain ⟨w1, h1, h2⟩ := hr
    have hi : i < L.length := by
      simp only [famStep, step] at h1
      rw [Res.bind_eq_ok] at h1
      obtain ⟨o, ho, _⟩ := h1
      rw [← h.len]
      exact (List.getElem?_eq_some_iff.1 (rd_eq_ok.1 ho)).1
    obtain ⟨w2, h3, h4⟩ := h.copy (P := P) hi hc.1
    rw [h1] at h3; cases h3
    exact h4.famFrom_ok cs hc.2 h2
  | .call i op :: cs, L, w, h, hc, w', hr => by
    simp only [famFrom] at hr
    rw [Res.bind_eq_ok] at hr
    obtain ⟨w1, h1, h2⟩ := hr
    simp only [famStep] at h1
    by_cases hi : i < L.length
    · have := h.call (P := P) hi (op := op)
      rw [h1] at this
      obtain ⟨_, _, h4⟩ := this.ok_left
      exact h4.famFrom_ok cs hc h2
    · exfalso
      have hno : rd w.objs i = .ub := by
        rw [rd, List.getElem?_eq_none (by rw [h.len]; omega)]
      cases op with
      | add e =>
        simp only [MWorld.call, addEdge, unionStep, hno] at h1
        cases h1
      | del e =>
        simp only [MWorld.call, hno] at h1
        cases h1

theorem FTracks.famFrom_total {P : MPar} : ∀ (cs : List MFam) {L : List (Nat × List Op)} {w : MWorld}, FTracks P L w →
    FamIdle P cs L → FamNamed cs L.length → (∀ l ∈ famHists cs L, ∃ d, DKM.run P l.1 l.2 = .ok d) →
    ∃ w', famFrom P w cs = .ok w'
  | [], L, w, h, _, _, _ => ⟨w, rfl⟩
  | .new n :: cs, L, w, h, hc, hn, ha => by
    obtain ⟨t, ht⟩ := famHists_prefix cs (L := L ++ [(n, [])]) (i := L.length) (l := (n, [])) (by simp)
    obtain ⟨d, hd⟩ := ha _ (List.mem_iff_getElem?.2 ⟨_, ht⟩)
    have h0 : ∃ o, HM.create P n = .ok o := by
      unfold HM.create
      by_cases h1 : n = 1
      · subst h1
        simp [DKM.run, DKM.create] at hd
      · rw [if_neg h1]; exact ⟨_, rfl⟩
    obtain ⟨o, ho⟩ := h0
    obtain ⟨w', h3⟩ := (h.new ho).famFrom_total cs hc (by rw [List.length_append]; exact hn) ha
    exact ⟨w', by simp only [famFrom, famStep, ho, Res.ok_bind, h3]⟩
  | .copy i :: cs, L, w, h, hc, hn, ha => by
    obtain ⟨w1, h1, h2⟩ := h.copy (P := P) hn.1 hc.1
    have hil := hn.1
    have hL : L[i]? = some L[i] := List.getElem?_eq_getElem hil
    obtain ⟨w', h3⟩ := h2.famFrom_total cs hc.2 (by simpa [hL] using hn.2) ha
    exact ⟨w', by simp only [famFrom, h1, Res.ok_bind, h3]⟩
  | .call i op :: cs, L, w, h, hc, hn, ha => by
    have hil := hn.1
    have hL : L[i]? = some L[i] := List.getElem?_eq_getElem hil
    obtain ⟨t, ht⟩ := famHists_prefix cs (L := L.modify i (fun l => (l.1, l.2 ++ [op]))) (i := i)
      (l := (L[i].1, L[i].2 ++ [op])) (by rw [List.getElem?_modify_eq, hL]; rfl)
    obtain ⟨d, hd⟩ := run_prefix (ha _ (List.mem_iff_getElem?.2 ⟨i, ht⟩))
    have := h.call (P := P) hn.1 (op := op)
    rw [hd] at this
    obtain ⟨w1, h1, h2⟩ := this.ok_right
    obtain ⟨w', h3⟩ := h2.famFrom_total cs hc (by simpa using hn.2) ha
    exact ⟨w', by simp only [famFrom, famStep, h1, Res.ok_bind, h3]⟩

theorem FTracks.empty (P : MPar) : FTracks P [] ⟨[], []⟩ :=
  ⟨⟨fun x o ho => by simp at ho, fun x o ho => by simp at ho⟩, rfl, fun i o l ho => by simp at ho⟩

theorem FTracks.like {P : MPar} {L : List (Nat × List Op)} {w : MWorld} (h : FTracks P L w) {i : Nat} {l : Nat × List Op}
    (hi : L[i]? = some l) : ∃ d, DKM.run P l.1 l.2 = .ok d ∧ w.Like P i d := by
  obtain ⟨o, ho⟩ : ∃ o, w.objs[i]? = some o :=
    ⟨_, List.getElem?_eq_getElem (by rw [h.len]; exact (List.getElem?_eq_some_iff.1 hi).1)⟩
  have hv := (h.apart.valid i o ho).1
  exact ⟨_, h.view i o l ho hi, o, ho, fun e => contains_rel P hv e, fun x => listNeighbour_rel P hv x, rfl, rfl⟩

end MWorld

open MWorld

/-- The objects of a program in which only idle graphs are copied are independent. -/
theorem C84_idle (P : MPar) (cs : List MFam) (hidle : FamIdle P cs []) :
    (∀ w, MWorld.fam P cs = .ok w → ∀ (i n : Nat) (ops : List Op), (famHists cs [])[i]? = some (n, ops) →
      ∃ d, DKM.run P n ops = .ok d ∧ w.Like P i d) ∧
    (FamNamed cs 0 → (∀ n ops, (n, ops) ∈ famHists cs [] → ∃ d, DKM.run P n ops = .ok d) →
      ∃ w, MWorld.fam P cs = .ok w) := by
  constructor
  · intro w hw i n ops hi
    exact ((FTracks.empty P).famFrom_ok cs hidle hw).like hi
  · intro hn ha
    exact (FTracks.empty P).famFrom_total cs hidle hn (fun l hl => ha l.1 l.2 hl)

/-- C84: `DKtree_delay_munro` graphs constructed separately, any number of them, at any point of the program, and on any numbers of
vertices, never influence each other: whatever calls are made on them in whatever order, each answers as if its own calls had
been made alone, and the program returns if each graph's calls return alone. -/
theorem C84_independent (P : MPar) (cs : List MFam) (hnc : NoCopies cs) :
    (∀ w, MWorld.fam P cs = .ok w → ∀ (i n : Nat) (ops : List Op), (famHists cs [])[i]? = some (n, ops) →
      ∃ d, DKM.run P n ops = .ok d ∧ w.Like P i d) ∧
    (FamNamed cs 0 → (∀ n ops, (n, ops) ∈ famHists cs [] → ∃ d, DKM.run P n ops = .ok d) →
      ∃ w, MWorld.fam P cs = .ok w) :=
  C84_idle P cs hnc.idle

/-- A program that meets the hypotheses: a graph over 256 vertices has a merge in progress when a second one is constructed;
the second starts a merge of its own, both go on. -/
def wFam : List MFam :=
  [.new 256] ++ DKM.w18.map (fun e => MFam.call 0 (.add e)) ++ [.new 256] ++
    DKM.w18.map (fun e => MFam.call 1 (.add (e.2, e.1))) ++
    [.call 0 (.add (0, 1)), .call 1 (.add (0, 1)), .call 0 (.add (1, 2)), .call 1 (.add (3, 2)), .call 0 (.add (9, 9))]

example (nd : Bool) : NoCopies wFam ∧ FamNamed wFam 0 ∧
    ∃ w, MWorld.fam (DKM.real 2 nd) wFam = .ok w ∧ w.objs.length = 2 ∧ 2 ≤ w.heap.length := by
  have hy : (match MWorld.fam (DKM.P256 nd) wFam with
      | .ok w => decide (w.objs.length = 2 ∧ 2 ≤ w.heap.length)
      | _ => false) = true := by
    cases nd <;> decide +kernel
  rw [← DKM.real_eq_256] at hy
  refine ⟨?_, by decide, ?_⟩
  · intro i hi
    have : (wFam.all (fun c => match c with
      | .copy _ => false
      | _ => true)) = true := by decide
    have := List.all_eq_true.1 this _ hi
    cases this
  · revert hy
    cases MWorld.fam (DKM.real 2 nd) wFam with
    | ok w => intro hy; exact ⟨w, rfl, of_decide_eq_true hy⟩
    | _ => intro hy; cases hy

end DK2
