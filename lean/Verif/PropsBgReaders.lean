import Verif.PropsBg
import Verif.ConcMany
/-!
# C103 – several threads reading one `DKtree_background` or `DKtree_background_wait` while the worker merges
-/

namespace DK2

/-- A reading thread: calls of `contains`, `list_neighbour` and the counters, each depending on the answers so far. -/
inductive BQ (α : Type) where
  | done (a : α)
  | contains (e : Edge) (k : Bool → BQ α)
  | neighbours (x : Nat) (k : List Nat → BQ α)
  | edges (k : Nat → BQ α)
  | nodes (k : Nat → BQ α)

namespace BQ
variable {α : Type}

/-- The arguments name vertices `0..n-1`. -/
def Legal (n : Nat) : BQ α → Prop
  | done _ => True
  | contains e k => InRange n e ∧ ∀ r, (k r).Legal n
  | neighbours x k => x < n ∧ ∀ r, (k r).Legal n
  | edges k | nodes k => ∀ r, (k r).Legal n

/-- No call of `list_neighbour`. -/
def MemberOnly : BQ α → Prop
  | done _ => True
  | contains _ k => ∀ r, (k r).MemberOnly
  | neighbours _ _ => False
  | edges k | nodes k => ∀ r, (k r).MemberOnly

/-- The value `b` is returned for some answers that satisfy `C` (for `contains`) and `N` (for `list_neighbour`), the counters
being `m` and `n`. -/
def From (C : Edge → Bool → Prop) (N : Nat → List Nat → Prop) (m n : Nat) (b : α) : BQ α → Prop
  | done a => b = a
  | contains e k => ∃ r, C e r ∧ (k r).From C N m n b
  | neighbours x k => ∃ r, N x r ∧ (k r).From C N m n b
  | edges k => (k m).From C N m n b
  | nodes k => (k n).From C N m n b

theorem From.mono {C C' : Edge → Bool → Prop} {N N' : Nat → List Nat → Prop} {m n k : Nat} {b : α} (hC : ∀ e r, InRange k e → C e r → C' e r)
    (hN : ∀ x r, x < k → N x r → N' x r) {t : BQ α} (hl : t.Legal k) (h : t.From C N m n b) : t.From C' N' m n b := by
  induction t with
  | done a => exact h
  | contains e k ih => obtain ⟨r, h1, h2⟩ := h; exact ⟨r, hC e r hl.1 h1, ih r (hl.2 r) h2⟩
  | neighbours x k ih => obtain ⟨r, h1, h2⟩ := h; exact ⟨r, hN x r hl.1 h1, ih r (hl.2 r) h2⟩
  | edges k ih => exact ih _ (hl _) h
  | nodes k ih => exact ih _ (hl _) h

end BQ

namespace BG
open DK
variable {K : K2Impl}

/-- A reading thread (`contains` 179-196, `list_neighbour` 244-264, `get_number_edges` 127-129, `get_number_nodes` 131-133 of
DKtree_background.hpp; w:215-232, w:285-305, w:156-162).  `n_vertices` is written only before the worker starts. -/
def bprog {α : Type} : BQ α → BProg K α
  | .done a => .ret a
  | .contains e k => (contains e).bind fun r => bprog (k r)
  | .neighbours x k => (listNeighbour x).bind fun r => bprog (k r)
  | .edges k => (Prog.read ⟨[.nTotal], []⟩ (fun s => .ok s.numberEdges)).bind fun r => bprog (k r)
  | .nodes k => (Prog.read .none (fun s => .ok s.g.numberNodes)).bind fun r => bprog (k r)

/-- Several reading threads and the worker: in every interleaving no race, no failure, the values returned result from answers
that satisfy `C` and `N`, and all threads can finish. -/
def ReadersOk {α : Type} (S : Sizing) (C : Edge → Bool → Prop) (N : Nat → List Nat → Prop) (n : Nat) (ts : List (BQ α)) (s : BG K)
    (w : WPC K.T) : Prop :=
  ∀ qs s' w', MExec (worker K S) (ts.map bprog) s w qs s' w' →
    ¬ MRace (worker K S) qs w' ∧ (∀ q ∈ qs, ¬ CBad q s') ∧
    (∀ (i : Nat) (t : BQ α) (a : α), ts[i]? = some t → qs[i]? = some (.ret a) → t.From C N s.numberEdges n a) ∧
    ∃ rs, MExec (worker K S) qs s' w' rs s' w' ∧ AllDone rs

/-! ## Rules -/

theorem contains_reader (e : Edge) : Reader (contains e : BProg K Bool) := by
  refine Reader.bind (Reader.read _ rfl _) fun b => ?_
  cases b with
  | true => exact trivial
  | false =>
    refine Reader.bind (Reader.read _ rfl _) fun nd => ?_
    cases nd <;> exact Reader.read _ rfl _

theorem listNeighbour_reader (x : Nat) : Reader (listNeighbour x : BProg K (List Nat)) := by
  refine Reader.bind (Reader.read _ rfl _) fun l => Reader.bind (Reader.read _ rfl _) fun nd => ?_
  cases nd <;> exact Reader.bind (Reader.read _ rfl _) fun _ => trivial

theorem bprog_reader {α : Type} (t : BQ α) : Reader (bprog t : BProg K α) := by
  induction t with
  | done a => exact trivial
  | contains e k ih => exact Reader.bind (contains_reader e) ih
  | neighbours x k ih => exact Reader.bind (listNeighbour_reader x) ih
  | edges k ih => exact Reader.bind (Reader.read _ rfl _) ih
  | nodes k ih => exact Reader.bind (Reader.read _ rfl _) ih

theorem bprog_noWait {α : Type} (t : BQ α) : NoWait (bprog t : BProg K α) := by
  induction t with
  | done a => exact trivial
  | contains e k ih => exact NoWait.bind (contains_noWait e) ih
  | neighbours x k ih => exact NoWait.bind (listNeighbour_noWait x) ih
  | edges k ih => exact NoWait.bind (fun _ => trivial) ih
  | nodes k ih => exact NoWait.bind (fun _ => trivial) ih

theorem NoWait.exec {α : Type} {W : Worker (BG K) (WPC K.T) BLoc} {p q : BProg K α} {s s' : BG K} {w w' : WPC K.T} (hp : NoWait p)
    (h : Exec W p s w q s' w') : NoWait q := by
  induction h with
  | start => exact hp
  | caller _ hs ih =>
    cases hs with
    | act hf => exact ih _
    | pass hc => exact ih.elim
  | worker _ _ ih => exact ih

/-- A reader keeps whatever the worker keeps. -/
theorem Ok.frame {α : Type} {W : Worker (BG K) (WPC K.T) BLoc} {I : BG K → WPC K.T → Prop} {tot : Prop} {R : BG K → WPC K.T → Prop}
    (hR : Stable W R) : ∀ {p : BProg K α}, Reader p → ∀ {P : BG K → WPC K.T → Prop} {Q : α → BG K → WPC K.T → Prop}, Ok W I tot p P Q →
      Ok W I tot p (fun s w => P s w ∧ R s w) (fun a s w => Q a s w ∧ R s w) := by
  intro p
  have st : ∀ {P : BG K → WPC K.T → Prop}, St W I P → St W I (fun s w => P s w ∧ R s w) := fun h =>
    ⟨fun s w s' w' hp hs => ⟨h.1 s w s' w' hp.1 hs, hR s w s' w' hp.2 hs⟩, fun s w hp => h.2 s w hp.1⟩
  induction p with
  | ret a => intro _ P Q h; exact ⟨st h.1, fun s w hp => ⟨h.2 s w hp.1, hp.2⟩⟩
  | act acc f k ih =>
    intro hr P Q h
    obtain ⟨h1, h2, h3, P', h4, h5⟩ := h
    refine ⟨st h1, fun s w hp => h2 s w hp.1, fun ht s w hp => h3 ht s w hp.1, fun b s w => P' b s w ∧ R s w, ?_,
      fun b => ih b (hr.2.2 b) (h5 b)⟩
    intro s w s' b hp hf
    have := hr.2.1 s s' b hf
    subst this
    exact ⟨h4 _ _ _ _ hp.1 hf, hp.2⟩
  | wait c k ih =>
    intro hr P Q h
    obtain ⟨h1, P', h2, h3⟩ := h
    exact ⟨st h1, fun s w => P' s w ∧ R s w, fun s w hp hc => ⟨h2 s w hp.1 hc, hp.2⟩, ih hr h3⟩

/-- A reader that never waits can be brought to its end at once. -/
theorem Ok.finish {α : Type} {W : Worker (BG K) (WPC K.T) BLoc} {I P : BG K → WPC K.T → Prop} {p : BProg K α}
    {Q : α → BG K → WPC K.T → Prop} (h : Ok W I True p P Q) (hr : Reader p) (hw : NoWait p) {s : BG K} {w : WPC K.T} (hp : P s w) :
    ∃ a, Exec W p s w (.ret a) s w := by
  induction p generalizing P with
  | ret a => exact ⟨a, .start⟩
  | act acc f k ih =>
    obtain ⟨_, _, h3, P', h4, h5⟩ := h
    obtain ⟨⟨s', b⟩, hf⟩ := h3 trivial s w hp
    have := hr.2.1 s s' b hf
    subst this
    obtain ⟨a, he⟩ := ih b (h5 b) (hr.2.2 b) (hw b) (h4 _ _ _ _ hp hf)
    exact ⟨a, Exec.trans (.caller .start (.act hf)) he⟩
  | wait c k ih => exact absurd hw id

/-- Answers to each kind of call, kept assertion `R`: answers to a whole thread. -/
theorem bprog_ok {S : Sizing} {I R : BG K → WPC K.T → Prop} {C : Edge → Bool → Prop} {N : Nat → List Nat → Prop} {m n k : Nat}
    (hR : St (worker K S) I R) (hm : ∀ s w, R s w → s.numberEdges = m) (hn : ∀ s w, R s w → s.g.numberNodes = n)
    (hC : ∀ e, InRange k e → Ok (worker K S) I True (contains e) R (fun b s w => R s w ∧ C e b)) {α : Type} (t : BQ α)
    (hN : t.MemberOnly ∨ ∀ x, x < k → Ok (worker K S) I True (listNeighbour x) R (fun l s w => R s w ∧ N x l)) (hl : t.Legal k) :
    Ok (worker K S) I True (bprog t) R (fun a _ _ => t.From C N m n a) := by
  have pre : ∀ {β : Type} {p : BProg K β} {Q : β → BG K → WPC K.T → Prop} {X : Prop}, (X → Ok (worker K S) I True p R Q) →
      ¬ X → Ok (worker K S) I True p (fun s w => R s w ∧ X) Q := by
    intro β p Q X _ hx
    have : ∀ {p : BProg K β}, Ok (worker K S) I True p (fun s w => R s w ∧ X) Q := by
      intro p
      induction p with
      | ret a => exact ⟨⟨fun _ _ _ _ h => absurd h.2 hx, fun _ _ h => absurd h.2 hx⟩, fun _ _ h => absurd h.2 hx⟩
      | act acc f k ih =>
        exact ⟨⟨fun _ _ _ _ h => absurd h.2 hx, fun _ _ h => absurd h.2 hx⟩, fun _ _ h => absurd h.2 hx, fun _ _ _ h => absurd h.2 hx,
          fun _ s w => R s w ∧ X, fun _ _ _ _ h => absurd h.2 hx, fun b => ih b⟩
      | wait c k ih =>
        exact ⟨⟨fun _ _ _ _ h => absurd h.2 hx, fun _ _ h => absurd h.2 hx⟩, fun s w => R s w ∧ X, fun _ _ h => absurd h.2 hx, ih⟩
    exact this
  have cond : ∀ {β : Type} {p : BProg K β} {Q : β → BG K → WPC K.T → Prop} {X : Prop}, (X → Ok (worker K S) I True p R Q) →
      Ok (worker K S) I True p (fun s w => R s w ∧ X) Q := by
    intro β p Q X h
    by_cases hx : X
    · exact (h hx).pre _ (fun s w s' w' hp hs => ⟨hR.1 s w s' w' hp.1 hs, hx⟩) (fun s w hp => hp.1)
    · exact pre h hx
  induction t with
  | done a => exact ⟨hR, fun _ _ _ => rfl⟩
  | contains e q ih =>
    refine Ok.bind _ (hC e hl.1) fun b => cond fun hb => ?_
    refine Ok.conseq _ (ih b (hN.imp (fun h => h b) id) (hl.2 b)) fun a s w h => ⟨b, hb, h⟩
  | neighbours x q ih =>
    have hN' := hN.resolve_left id
    refine Ok.bind _ (hN' x hl.1) fun b => cond fun hb => ?_
    refine Ok.conseq _ (ih b (.inr hN') (hl.2 b)) fun a s w h => ⟨b, hb, h⟩
  | edges q ih =>
    refine Ok.bind (R := fun b s w => R s w ∧ b = m) _ ?_ fun b => cond fun hb => ?_
    · refine Ok.read _ hR.1 (fun s w _ => no_conflict_private (by simp) w) (fun _ s w _ => ⟨_, rfl⟩) ?_ ?_ hR.2 (fun b s w h => hR.2 s w h.1)
      · intro s w b h hb
        cases hb
        exact ⟨h, hm s w h⟩
      · intro b s w s' w' h hs
        exact ⟨hR.1 s w s' w' h.1 hs, h.2⟩
    · subst hb
      exact Ok.conseq _ (ih b (hN.imp (fun h => h b) id) (hl b)) fun a s w h => h
  | nodes q ih =>
    refine Ok.bind (R := fun b s w => R s w ∧ b = n) _ ?_ fun b => cond fun hb => ?_
    · refine Ok.read _ hR.1 (fun s w _ => no_conflict_private (by simp [Acc.none]) w) (fun _ s w _ => ⟨_, rfl⟩) ?_ ?_ hR.2 (fun b s w h => hR.2 s w h.1)
      · intro s w b h hb
        cases hb
        exact ⟨h, hn s w h⟩
      · intro b s w s' w' h hs
        exact ⟨hR.1 s w s' w' h.1 hs, h.2⟩
    · subst hb
      exact Ok.conseq _ (ih b (hN.imp (fun h => h b) id) (hl b)) fun a s w h => h

/-- From one thread to several. -/
theorem readersOk_of {S : Sizing} {I R : BG K → WPC K.T → Prop} {C : Edge → Bool → Prop} {N : Nat → List Nat → Prop} {n : Nat} {α : Type}
    {ts : List (BQ α)} {s : BG K} {w : WPC K.T} (h0 : R s w)
    (ht : ∀ t ∈ ts, Ok (worker K S) I True (bprog t) R (fun a _ _ => t.From C N s.numberEdges n a)) : ReadersOk S C N n ts s w := by
  intro qs s' w' h
  have hrd : ∀ p ∈ ts.map (bprog (K := K)), Reader p := by
    intro p hp
    obtain ⟨t, _, rfl⟩ := List.mem_map.1 hp
    exact bprog_reader t
  obtain ⟨h1, h2, h3⟩ := h.alone hrd
  have get : ∀ (i : Nat) (q : BProg K α), qs[i]? = some q → ∃ t, ts[i]? = some t ∧ Exec (worker K S) (bprog t) s w q s' w' ∧ Reader q := by
    intro i q hi
    have hlt : i < qs.length := (List.getElem?_eq_some_iff.1 hi).1
    have hlt' : i < ts.length := by rw [List.length_map] at h1; omega
    have ht' : ts[i]? = some ts[i] := List.getElem?_eq_getElem hlt'
    exact ⟨_, ht', h2 i _ q (by rw [List.getElem?_map, ht']; rfl) hi⟩
  refine ⟨?_, fun q hq => ?_, fun i t a hi hq => ?_, MExec.allDone fun q hq => ?_⟩
  · rintro (⟨i, j, p, q, hij, hi, hj, hr⟩ | ⟨p, hp, hr⟩)
    · exact h3 i j p q hi hj hr
    · obtain ⟨i, hi⟩ := List.getElem?_of_mem hp
      obtain ⟨t, a1, a2, _⟩ := get i p hi
      exact (ht t (List.mem_of_getElem? a1)).norace _ h0 a2 hr
  · obtain ⟨i, hi⟩ := List.getElem?_of_mem hq
    obtain ⟨t, a1, a2, _⟩ := get i q hi
    exact (ht t (List.mem_of_getElem? a1)).nobad _ trivial h0 a2
  · obtain ⟨t', a1, a2, _⟩ := get i _ hq
    rw [hi] at a1; cases a1
    exact (ht t (List.mem_of_getElem? hi)).post _ h0 a2
  · obtain ⟨i, hi⟩ := List.getElem?_of_mem hq
    obtain ⟨t, a1, a2, a3⟩ := get i q hi
    obtain ⟨P', b1, b2⟩ := (ht t (List.mem_of_getElem? a1)).exec _ h0 a2
    exact Ok.finish b1 a3 (NoWait.exec (bprog_noWait t) a2) b2

end BG

open BG
variable {K : K2Impl}

/-- C103: any number of threads that only read, whatever history came before and whatever the worker does: no data race, no
failure, every call answers exactly for the edges of the history, and all threads can finish. -/
def C103_Full (wv : Bool) : Prop :=
  ∀ K : K2Impl, K.Lawful → ∀ n ops (s : BG K) w, OpsInRange n ops → Reach wv K realSizing n ops s w →
    ∀ (α : Type) (ts : List (BQ α)), (∀ t ∈ ts, t.Legal n) →
      ReadersOk realSizing (fun e b => b = true ↔ specMem ops e) (fun x l => ∀ y, y ∈ l ↔ specMem ops (x, y)) n ts s w

theorem MExec.single {σ ω L α : Type} {W : Worker σ ω L} {p q : Prog σ L α} {s s' : σ} {w w' : ω} (h : Exec W p s w q s' w') :
    MExec W [p] s w [q] s' w' := by
  induction h with
  | start => exact .start
  | caller _ hs ih => exact .caller (i := 0) ih rfl hs
  | worker _ hs ih => exact .worker ih hs

/-- A single thread that calls `list_neighbour` while the worker raises `max_r` races. -/
theorem C103_refuted (wv : Bool) : ¬ C103_Full wv := by
  intro h
  have hx : playTest wv hybSizing 5 (evHidden ++ [.work, .work, .work]) (fun s w =>
      schedTest (worker refK2 hybSizing) [true, true] (bprog (.neighbours 0 (fun l => .done l))) s w (fun p _ w => raceB p w)) = true := by
    cases wv <;> decide +kernel
  obtain ⟨s, w, h1, h2⟩ := playTest_sound (by decide) hx
  obtain ⟨p', s', w', h3, h4⟩ := schedTest_sound h2
  have := h refK2 refK2_lawful 5 _ s w (by decide) h1 (List Nat) [.neighbours 0 (fun l => .done l)]
    (by simp [BQ.Legal]) [p'] s' w' (by rw [realSizing_eq_hyb]; exact MExec.single h3)
  exact this.1 (.inr ⟨p', by simp, raceB_sound h4⟩)

/-- Threads that ask only for membership and the counters, on every history and schedule, also while the worker merges: no race,
no failure; an edge is reported only if it is in the graph or was deleted after having been inserted while present. -/
theorem C103_member_partial (hK : K.Lawful) (S : Sizing) (wv : Bool) {n : Nat} {ops : List Op} {s : BG K} {w : WPC K.T}
    (ho : OpsInRange n ops) (hr : Reach wv K S n ops s w) {α : Type} (ts : List (BQ α)) (hl : ∀ t ∈ ts, t.Legal n)
    (hm : ∀ t ∈ ts, t.MemberOnly) :
    ReadersOk S (fun e b => b = true → specMem ops e ∨ Ghost ops e) (fun _ _ => False) n ts s w := by
  obtain ⟨c, hc⟩ := hr.track hK ho
  have hn := hc.n
  have hF : Stable (worker K S) (fun s' _ => s'.numberEdges = s.numberEdges) := by
    intro s1 w1 s2 w2 h hw
    exact (wstep_frame hw).2.1.trans h
  have hR : St (worker K S) (good S False) (fun s' w' => JJ S c s' w' ∧ s'.numberEdges = s.numberEdges) :=
    ⟨fun s1 w1 s2 w2 h hw => ⟨JJ_stable hK S c _ _ _ _ h.1 hw, hF _ _ _ _ h.2 hw⟩, fun _ _ h => good_intro h.1 False.elim⟩
  refine readersOk_of (I := good S False) (R := fun s' w' => JJ S c s' w' ∧ s'.numberEdges = s.numberEdges) ⟨hc.inv, rfl⟩ fun t ht => ?_
  refine bprog_ok (k := n) hR (fun _ _ h => h.2) (fun s' w' h => h.1.nv.trans hn) (fun e he => ?_) t (.inl (hm t ht)) (hl t ht)
  refine Ok.conseq _ (Ok.frame hF (contains_reader e) (contains_ok hK S c (hn ▸ he) True (tg := False) False.elim)) fun b s' w' h => ?_
  exact ⟨⟨h.1.1, h.2⟩, fun hb => hc.only e (J.seen_mem h.1.1 (h.1.2.1 hb))⟩

/-- From a state without a pending merge, all queries, on every history: no edge of the graph is missing from an answer, and an edge
not in the graph is reported only if it was deleted after having been inserted while present. -/
theorem C103_idle_partial (hK : K.Lawful) (S : Sizing) (wv : Bool) {n : Nat} {ops : List Op} {s : BG K} {w : WPC K.T}
    (ho : OpsInRange n ops) (hr : Reach wv K S n ops s w) (hi : s.needs = false) {α : Type} (ts : List (BQ α))
    (hl : ∀ t ∈ ts, t.Legal n) :
    ReadersOk S (fun e b => (specMem ops e → b = true) ∧ (b = true → specMem ops e ∨ Ghost ops e))
      (fun x l => (∀ y, (specMem ops (x, y) → y ∈ l) ∧ (y ∈ l → specMem ops (x, y) ∨ Ghost ops (x, y))) ∧
        ((∀ e, ¬ ReAdded ops e) → l.Nodup)) n ts s w := by
  obtain ⟨c, hc⟩ := hr.track hK ho
  have hn := hc.n
  have hJ := JJ.V_idle hc.inv hi
  generalize hc' : ({ c with V := c.G } : JC) = c' at hJ
  have hn' : c'.n = n := by subst hc'; exact hn
  have hG' : c'.G = c.G := by subst hc'; rfl
  have hV' : c'.V = c.G := by subst hc'; rfl
  have hD' : c'.D = c.D := by subst hc'; rfl
  have hF : Stable (worker K S) (fun s' _ => s'.needs = false ∧ s'.numberEdges = s.numberEdges) := by
    intro s1 w1 s2 w2 h hw
    exact ⟨(wstep_frame hw).2.2.2.2.2.2 h.1, (wstep_frame hw).2.1.trans h.2⟩
  have hF1 : Stable (worker K S) (fun s' _ => s'.numberEdges = s.numberEdges) := by
    intro s1 w1 s2 w2 h hw
    exact (wstep_frame hw).2.1.trans h
  have hR : St (worker K S) (good S False) (fun s' w' => JJ S c' s' w' ∧ s'.needs = false ∧ s'.numberEdges = s.numberEdges) :=
    ⟨fun s1 w1 s2 w2 h hw => ⟨JJ_stable hK S c' _ _ _ _ h.1 hw, hF _ _ _ _ h.2 hw⟩, fun _ _ h => good_intro h.1 False.elim⟩
  refine readersOk_of (I := good S False) (R := fun s' w' => JJ S c' s' w' ∧ s'.needs = false ∧ s'.numberEdges = s.numberEdges) ⟨hJ, hi, rfl⟩ fun t ht => ?_
  refine bprog_ok (k := n) hR (fun _ _ h => h.2.2) (fun s' w' h => h.1.nv.trans hn') (fun e he => ?_) t (.inr fun x hx => ?_) (hl t ht)
  · refine Ok.conseq _ (Ok.frame hF (contains_reader e) (contains_ok hK S c' (hn' ▸ he) True (tg := False) False.elim)) fun b s' w' h => ?_
    refine ⟨⟨h.1.1, h.2⟩, fun hs => ?_, fun hb => hc.only e (hG' ▸ J.seen_mem h.1.1 (h.1.2.1 hb))⟩
    cases b with
    | true => rfl
    | false => exact absurd (hc.keep e hs) (hV' ▸ (h.1.2.2 rfl).2)
  · refine Ok.conseq _ (Ok.pre _ (Ok.frame hF1 (listNeighbour_reader x)
      (listNeighbour_ok hK S c' (hn' ▸ hx) True (tg := False) False.elim)) hR.1 (fun s' w' h => ⟨⟨h.1, h.2.1⟩, h.2.2⟩)) fun l s' w' h => ?_
    obtain ⟨⟨⟨h1, h2⟩, h3, h4⟩, h5⟩ := h
    refine ⟨⟨h1, h2, h5⟩, fun y => ?_, fun hno => h4 fun e he => hno e (hc.D e (hD' ▸ he))⟩
    have := h3 y
    rw [hG'] at this
    exact ⟨fun h => this.2 (hc.keep _ h), fun h => hc.only _ (this.1 h)⟩

/-- If no edge was inserted while present, everything is exact from a state without a pending merge, and the edge count is the
number of edges. -/
theorem C103_exact_partial (hK : K.Lawful) (S : Sizing) (wv : Bool) {n : Nat} {ops : List Op} {s : BG K} {w : WPC K.T}
    (ho : OpsInRange n ops) (hr : Reach wv K S n ops s w) (hno : ∀ e, ¬ ReAdded ops e) (hi : s.needs = false) {α : Type}
    (ts : List (BQ α)) (hl : ∀ t ∈ ts, t.Legal n) :
    ReadersOk S (fun e b => b = true ↔ specMem ops e) (fun x l => l.Nodup ∧ ∀ y, y ∈ l ↔ specMem ops (x, y)) n ts s w ∧
    ∃ l : List Edge, l.Nodup ∧ (∀ e, e ∈ l ↔ specMem ops e) ∧ s.numberEdges = l.length := by
  have hgh : ∀ e, ¬ Ghost ops e := by
    rintro e ⟨pre, post, h1, p1, p2, h2, h3⟩
    exact hno e ⟨p1, p2 ++ Op.del e :: post, by rw [h1, h2]; simp, h3⟩
  refine ⟨fun qs s' w' h => ?_, (C36_no_readd_partial hK S wv ho hr hno).1⟩
  obtain ⟨h1, h2, h3, h4⟩ := C103_idle_partial hK S wv ho hr hi ts hl qs s' w' h
  refine ⟨h1, h2, fun i t a hi' hq => (h3 i t a hi' hq).mono (fun e r _ h => ?_) (fun x r _ h => ?_) (hl t (List.mem_of_getElem? hi')), h4⟩
  · exact ⟨fun hb => (h.2 hb).resolve_right (hgh e), h.1⟩
  · exact ⟨h.2 hno, fun y => ⟨fun hy => ((h.1 y).2 hy).resolve_right (hgh _), (h.1 y).1⟩⟩

/-- Once one thread has been told that an edge is present, every thread that asks from then on is told the same, whatever the worker
does. -/
theorem C103_again_partial (hK : K.Lawful) (S : Sizing) (wv : Bool) {n : Nat} {ops : List Op} {s : BG K} {w : WPC K.T}
    (ho : OpsInRange n ops) (hr : Reach wv K S n ops s w) {e : Edge} (he : InRange n e) {m i : Nat} {qs : List (BProg K Bool)}
    {s' : BG K} {w' : WPC K.T} (hx : MExec (worker K S) (List.replicate m (contains e)) s w qs s' w') (hi : qs[i]? = some (.ret true))
    (ks : Nat) : ReadersOk S (fun _ b => b = true) (fun _ _ => False) n (List.replicate ks (.contains e .done)) s' w' := by
  obtain ⟨c, hc⟩ := hr.track hK ho
  have he' : InRange c.n e := hc.n ▸ he
  obtain ⟨h1, h2, _⟩ := hx.alone (fun p hp => by rw [List.eq_of_mem_replicate hp]; exact contains_reader e)
  have hlt : i < m := by
    have := (List.getElem?_eq_some_iff.1 hi).1
    rw [List.length_replicate] at h1; omega
  obtain ⟨hex, _⟩ := h2 i (contains e) _ (by rw [List.getElem?_replicate, if_pos hlt]) hi
  obtain ⟨h1, h2, _⟩ := (contains_ok hK S c he' True (tg := False) False.elim).post _ hc.inv hex
  have hJ : JJ S { c with V := fun e' => e' = e } s' w' :=
    J.congr h1 rfl (fun _ => Iff.rfl) (fun _ h => h) (fun e' hh => hh ▸ h2 rfl) id
  have hF : Stable (worker K S) (fun t' _ => t'.numberEdges = s'.numberEdges) := by
    intro s1 w1 s2 w2 h hw
    exact (wstep_frame hw).2.1.trans h
  have hst := JJ_stable hK S { c with V := fun e' => e' = e }
  refine readersOk_of (R := fun t' u' => JJ S { c with V := fun e' => e' = e } t' u' ∧ t'.numberEdges = s'.numberEdges) (I := good S False)
    ⟨hJ, rfl⟩ fun t ht => ?_
  rw [List.eq_of_mem_replicate ht]
  have hok := Ok.frame hF (contains_reader e) (contains_ok hK S { c with V := fun e' => e' = e } he' True (tg := False) False.elim)
  refine Ok.bind (R := fun b t' u' => (JJ S { c with V := fun e' => e' = e } t' u' ∧ t'.numberEdges = s'.numberEdges) ∧ b = true) _
    (Ok.conseq _ hok fun b t' u' h => ⟨⟨h.1.1, h.2⟩, ?_⟩) fun b => ⟨⟨?_, fun _ _ h => good_intro h.1.1 False.elim⟩, fun _ _ h => ?_⟩
  · cases b with
    | true => rfl
    | false => exact absurd rfl (h.1.2.2 rfl).2
  · intro s1 w1 s2 w2 h hw
    exact ⟨⟨hst _ _ _ _ h.1.1 hw, hF _ _ _ _ h.1.2 hw⟩, h.2⟩
  · exact ⟨b, h.2, rfl⟩

/-- Non-vacuity: with a merge pending, two membership threads; after it, threads of all kinds. -/
example (wv : Bool) : ∃ (s : BG refK2) (w : WPC refK2.T), Reach wv refK2 realSizing 5 [.add (0, 1), .add (1, 2)] s w ∧ s.needs = true ∧
    ReadersOk realSizing (fun e b => b = true → specMem [.add (0, 1), .add (1, 2)] e ∨ Ghost [.add (0, 1), .add (1, 2)] e)
      (fun _ _ => False) 5 [.contains (0, 1) .done, .contains (1, 2) fun _ => .contains (0, 1) .done] s w := by
  have hx : playTest wv hybSizing 5 evHidden (fun s _ => s.needs) = true := by cases wv <;> decide +kernel
  obtain ⟨s, w, h1, h2⟩ := playTest_sound (by decide) hx
  exact ⟨s, w, h1, h2, C103_member_partial refK2_lawful _ wv (by decide) h1 _ (by simp [BQ.Legal, InRange]) (by simp [BQ.MemberOnly])⟩

example (wv : Bool) : ∃ (s : BG refK2) (w : WPC refK2.T), Reach wv refK2 realSizing 5 (evOps evDone) s w ∧ s.needs = false := by
  have hx : playTest wv hybSizing 5 evDone (fun s _ => !s.needs) = true := by cases wv <;> decide +kernel
  obtain ⟨s, w, h1, h2⟩ := playTest_sound (by decide) hx
  exact ⟨s, w, h1, by simpa using h2⟩

end DK2
