import Verif.Readers
import Verif.PropsProg
import Verif.PropsPrune
import Verif.PropsPruneDelay
/-!
# C102 – several threads reading one graph
-/

namespace DK2
open DK
variable {K : K2Impl}

namespace SG

/-- What the stretches of a question read. -/
def touchR : Query → List RLoc
  | .contains _ => [.c0, .levels]
  | .numberEdges => [.nTotal]
  | .numberNodes => [.nv]
  | .neighbours _ => [.c0, .levels, .maxR]
  | .neighbourLoop _ => [.c0, .levels, .maxR, .nbIt]
  | .edgeLoop => [.c0, .levels, .nv, .eIt]
  | .nodeLoop => [.nv, .nodeIt]
  | _ => everything

/-- What they write. -/
def touchW : Query → List RLoc
  | .neighbourLoop _ => [.nbIt, .treeNb]
  | .edgeLoop => [.eIt, .treeE]
  | .nodeLoop => [.nodeIt]
  | .bfs _ | .dfs _ => [.treeNb]
  | .triangles => [.treeE]
  | _ => []

theorem eBegin_keeps {g : DK K} {i : Nat} {it : EIt} (h : g.eBegin i = .ok it) :
    it.c0 = g.c0 ∧ it.cur = g.ks.map (Option.map K.edges) := by
  unfold DK.eBegin at h
  simp only at h
  split at h
  · cases h; exact ⟨rfl, rfl⟩
  · split at h
    · rw [Res.bind_eq_ok] at h
      obtain ⟨o, _, h⟩ := h
      rw [Res.bind_eq_ok] at h
      obtain ⟨e, _, h⟩ := h
      cases h; exact ⟨rfl, rfl⟩
    · split at h
      · rw [Res.bind_eq_ok] at h
        obtain ⟨e, _, h⟩ := h
        cases h; exact ⟨rfl, rfl⟩
      · cases h; exact ⟨rfl, rfl⟩

theorem qprog_touches (q : Query) : (locs K).Touches (· ∈ touchR q) (· ∈ touchW q) (qprog q : Prog (SG K) RLoc Ans) := by
  have hread : ∀ {T U : RLoc → Prop} {β : Type} {rd : List RLoc} {f : SG K → Res β}, (∀ l ∈ rd, T l) →
      (∀ s t : SG K, (∀ l ∈ rd, AgreeAt s t l) → f s = f t) → (locs K).Touches T U (Prog.read ⟨rd, []⟩ f) :=
    fun h1 h2 => Locs.Touches.read h1 (by simp) (by simp) h2
  have hev : ∀ {s t : SG K}, (∀ l ∈ everything, AgreeAt s t l) → s = t := by
    intro s t h
    obtain ⟨⟨a1, a2, a3, a4, a5⟩, b1, b2, b3⟩ := s
    obtain ⟨⟨c1, c2, c3, c4, c5⟩, d1, d2, d3⟩ := t
    have e1 := h .c0 (by decide); have e2 := h .levels (by decide); have e3 := h .maxR (by decide)
    have e4 := h .nTotal (by decide); have e5 := h .nv (by decide); have e6 := h .nbIt (by decide)
    have e7 := h .eIt (by decide); have e8 := h .nodeIt (by decide)
    simp only [AgreeAt] at e1 e2 e3 e4 e5 e6 e7 e8
    subst e1 e2 e3 e4 e5 e6 e7 e8
    rfl
  cases q with
  | contains e =>
    refine Locs.Touches.bind (hread (by simp [touchR]) fun s t h => ?_) fun b => ?_
    · rw [show s.g.c0 = t.g.c0 from h .c0 (by simp)]
    · cases b with
      | true => exact trivial
      | false => exact hread (by simp [touchR]) fun s t h => by rw [show s.g.ks = t.g.ks from h .levels (by simp)]
  | numberEdges => exact hread (by simp [touchR]) fun s t h => by rw [show s.g.nTotal = t.g.nTotal from h .nTotal (by simp)]
  | numberNodes => exact hread (by simp [touchR]) fun s t h => by rw [show s.g.nv = t.g.nv from h .nv (by simp)]
  | neighbours x =>
    refine Locs.Touches.bind (hread (by simp [touchR]) fun s t h => ?_) fun b => hread (by simp [touchR]) fun s t h => ?_
    · rw [show s.g.c0 = t.g.c0 from h .c0 (by simp)]
    · rw [show s.g.ks = t.g.ks from h .levels (by simp), show s.g.maxR = t.g.maxR from h .maxR (by simp)]
  | neighbourLoop x =>
    refine ⟨⟨?_, ?_⟩, by simp [touchR], by simp [touchW], fun _ => ?_⟩
    · intro s s' b hs l hl
      rw [Res.bind_eq_ok] at hs
      obtain ⟨_, _, hs⟩ := hs
      cases hs
      cases l <;> first | exact rfl | exact True.intro | exact (hl (by simp)).elim
    · intro s t h s' b hs
      rw [Res.bind_eq_ok] at hs
      obtain ⟨it, h1, hs⟩ := hs
      cases hs
      have e : t.g.nbBegin x = s.g.nbBegin x := by
        unfold DK.nbBegin
        rw [show s.g.c0 = t.g.c0 from h .c0 (by simp), show s.g.ks = t.g.ks from h .levels (by simp),
          show s.g.maxR = t.g.maxR from h .maxR (by simp)]
      refine ⟨{ t with nb := some (x, it) }, ?_, ?_⟩
      · show (t.g.nbBegin x >>= _) = _
        rw [e, h1]; rfl
      · intro l hl
        simp at hl
        rcases hl with rfl | rfl
        · rfl
        · trivial
    · refine Locs.Touches.bind (hread (by simp [touchR]) fun s t h => ?_) fun it => ?_
      · rw [show s.nb = t.nb from h .nbIt (by simp)]
      · refine Locs.Touches.read (by simp [touchR]) (by simp [touchW]) (by rintro l hl s t; simp at hl; subst hl; trivial) fun s t h => ?_
        have e1 : s.g.c0 = t.g.c0 := h .c0 (by simp)
        have e2 : s.g.ks = t.g.ks := h .levels (by simp)
        have e3 : s.g.maxR = t.g.maxR := h .maxR (by simp)
        have e4 : ∀ x, s.g.nbNext x = t.g.nbNext x := by
          intro x
          funext it
          unfold DK.nbNext DK.nbNextTree
          rw [e1, e2, e3]
        unfold nbWalk DK.listNeighbour
        rw [e1, e2, e3, e4]
  | edgeLoop =>
    refine ⟨⟨?_, ?_⟩, by simp [touchR], by simp [touchW], fun _ => ?_⟩
    · intro s s' b hs l hl
      rw [Res.bind_eq_ok] at hs
      obtain ⟨_, _, hs⟩ := hs
      cases hs
      cases l <;> first | exact rfl | exact True.intro | exact (hl (by simp)).elim
    · intro s t h s' b hs
      rw [Res.bind_eq_ok] at hs
      obtain ⟨it, h1, hs⟩ := hs
      cases hs
      have e : t.g.eBegin 0 = s.g.eBegin 0 := by
        unfold DK.eBegin
        rw [show s.g.c0 = t.g.c0 from h .c0 (by simp), show s.g.ks = t.g.ks from h .levels (by simp),
          show s.g.nv = t.g.nv from h .nv (by simp)]
      refine ⟨{ t with eb := some it }, ?_, ?_⟩
      · show (t.g.eBegin 0 >>= _) = _
        rw [e, h1]; rfl
      · intro l hl
        simp at hl
        rcases hl with rfl | rfl
        · rfl
        · trivial
    · refine Locs.Touches.bind (hread (by simp [touchR]) fun s t h => ?_) fun it => ?_
      · rw [show s.eb = t.eb from h .eIt (by simp)]
      · exact Locs.Touches.read (by simp [touchR]) (by simp [touchW]) (by rintro l hl s t; simp at hl; subst hl; trivial) fun s t h => rfl
  | nodeLoop =>
    refine ⟨⟨?_, ?_⟩, by simp [touchR], by simp [touchW], fun _ => ?_⟩
    · intro s s' b hs l hl
      cases hs
      cases l <;> first | exact rfl | exact True.intro | exact (hl (by simp)).elim
    · intro s t h s' b hs
      cases hs
      have e : t.g.nodeBegin = s.g.nodeBegin := by
        unfold DK.nodeBegin DK.numberNodes
        rw [show s.g.nv = t.g.nv from h .nv (by simp)]
      refine ⟨_, rfl, ?_⟩
      intro l hl
      simp at hl
      subst hl
      show some s.g.nodeBegin = some t.g.nodeBegin
      rw [e]
    · refine Locs.Touches.bind (hread (by simp [touchR]) fun s t h => ?_) fun it => hread (by simp [touchR]) fun s t h => ?_
      · rw [show s.nd = t.nd from h .nodeIt (by simp)]
      · rw [show s.g.nv = t.g.nv from h .nv (by simp)]
  | bfs r =>
    exact Locs.Touches.read (by simp [touchR]) (by simp [touchW]) (by rintro l hl s t; simp at hl; subst hl; trivial)
      fun s t h => by rw [hev h]
  | dfs r =>
    exact Locs.Touches.read (by simp [touchR]) (by simp [touchW]) (by rintro l hl s t; simp at hl; subst hl; trivial)
      fun s t h => by rw [hev h]
  | triangles =>
    exact Locs.Touches.read (by simp [touchR]) (by simp [touchW]) (by rintro l hl s t; simp at hl; subst hl; trivial)
      fun s t h => by rw [hev h]

/-- Questions that do not clash keep out of each other's way. -/
theorem touch_apart {q q' : Query} (h : ¬ q.Clash q') : ∀ l, l ∈ touchW q → l ∉ touchR q' ∧ l ∉ touchW q' := by
  intro l
  cases q <;> cases q' <;>
    simp [Query.Clash, Query.iters, Query.loop, Query.algorithm] at h <;>
    cases l <;> simp [touchR, touchW, everything]

theorem Touches.keep {A : Locs (SG K) RLoc} {T U : RLoc → Prop} {α : Type} {p q : Prog (SG K) RLoc α} {s t : SG K} {w w' : Unit}
    (hp : A.Touches T U p) (h : Exec (noWorker _ _) p s w q t w') : A.Touches T U q ∧ ∀ l, ¬ U l → A.same l s t := by
  induction h with
  | start => exact ⟨hp, fun l _ => A.refl l s⟩
  | caller _ hs ih =>
    obtain ⟨h1, h2⟩ := ih
    cases hs with
    | act hf => exact ⟨h1.2.2.2 _, fun l hl => A.trans l _ _ _ (h2 l hl) (h1.1.1 _ _ _ hf l (fun hw => hl (h1.2.2.1 l hw)))⟩
    | pass hc => exact h1.elim
  | worker _ hw _ => cases hw

/-- No question changes the graph. -/
theorem qprog_keeps {q : Query} {p : Prog (SG K) RLoc Ans} {s t : SG K} (h : Exec (noWorker _ _) (qprog q) s () p t ()) : t.g = s.g := by
  have := (Touches.keep (qprog_touches q) h).2
  have hU : ∀ l ∈ [RLoc.c0, .levels, .maxR, .nTotal, .nv], ¬ l ∈ touchW q := by
    intro l hl
    cases q <;> cases l <;> simp [touchW] at hl ⊢
  obtain ⟨⟨a1, a2, a3, a4, a5⟩, b1, b2, b3⟩ := s
  obtain ⟨⟨c1, c2, c3, c4, c5⟩, d1, d2, d3⟩ := t
  have e1 := this .c0 (hU _ (by decide)); have e2 := this .levels (hU _ (by decide)); have e3 := this .maxR (hU _ (by decide))
  have e4 := this .nTotal (hU _ (by decide)); have e5 := this .nv (hU _ (by decide))
  simp only [locs, AgreeAt] at e1 e2 e3 e4 e5
  subst e1 e2 e3 e4 e5
  rfl

/-- A thread alone gets the answer of `DK.ask`. -/
theorem qprog_result {q : Query} {r : Ans} {s : SG K} (h : s.g.ask q = .ok r) : (qprog q).result s = .ok r := by
  have hrd : ∀ {β : Type} {acc : Acc RLoc} {f : SG K → Res β} {s : SG K} {b : β}, f s = .ok b → (Prog.read acc f).result s = .ok b := by
    intro β acc f s b h
    show ((f s >>= fun b => Res.ok (s, b)) >>= _) = _
    rw [h]; rfl
  have hex : ∀ {β : Type} {acc : Acc RLoc} {f : SG K → Res β} {s : SG K} {b : β}, f s = .ok b →
      Exec (noWorker (SG K) RLoc) (Prog.read acc f) s () (.ret b) s () := by
    intro β acc f s b h
    exact .caller .start (.act (b := b) (by show (f s >>= _) = _; rw [h]; rfl))
  cases q with
  | contains e =>
    change (s.g.contains e >>= _) = _ at h
    rw [Res.bind_eq_ok] at h
    obtain ⟨b, h1, h2⟩ := h
    cases h2
    unfold DK.contains at h1
    rw [Res.bind_eq_ok] at h1
    obtain ⟨b0, h1, h2⟩ := h1
    show (Prog.bind _ _).result s = _
    rw [Prog.result_bind (hex h1)]
    cases b0 with
    | true => cases h2; rfl
    | false => cases h2; exact hrd rfl
  | numberEdges => exact hrd h
  | numberNodes => exact hrd h
  | neighbours x =>
    change (s.g.listNeighbour x >>= _) = _ at h
    rw [Res.bind_eq_ok] at h
    obtain ⟨b, h1, h2⟩ := h
    cases h2
    unfold DK.listNeighbour at h1
    rw [Res.bind_eq_ok] at h1
    obtain ⟨b0, h1, h2⟩ := h1
    cases h2
    show (Prog.bind _ _).result s = _
    rw [Prog.result_bind (hex h1)]
    exact hrd rfl
  | neighbourLoop x =>
    change (s.g.iface.nb x >>= _) = _ at h
    rw [Res.bind_eq_ok] at h
    obtain ⟨b, h1, h2⟩ := h
    cases h2
    change (s.g.listNeighbour x >>= _) = _ at h1
    rw [Res.bind_eq_ok] at h1
    obtain ⟨l, h1, h2⟩ := h1
    rw [Res.bind_eq_ok] at h2
    obtain ⟨m, h2, h3⟩ := h2
    cases h3
    unfold DK.nbAll at h2
    rw [Res.bind_eq_ok] at h2
    obtain ⟨it, h2, h3⟩ := h2
    show ((s.g.nbBegin x >>= fun it => Res.ok ({ s with nb := some (x, it) }, ())) >>= _) = _
    rw [h2]
    show (Prog.bind _ _).result { s with nb := some (x, it) } = _
    rw [Prog.result_bind (hex (b := (x, it)) rfl)]
    refine hrd ?_
    show nbWalk s.g x it = _
    unfold nbWalk
    rw [h1, Res.ok_bind, h3]; rfl
  | edgeLoop =>
    change (s.g.iface.edges >>= _) = _ at h
    rw [Res.bind_eq_ok] at h
    obtain ⟨b, h1, h2⟩ := h
    cases h2
    change s.g.eAll 0 _ = _ at h1
    unfold DK.eAll at h1
    rw [Res.bind_eq_ok] at h1
    obtain ⟨it, h1, h2⟩ := h1
    show ((s.g.eBegin 0 >>= fun it => Res.ok ({ s with eb := some it }, ())) >>= _) = _
    rw [h1]
    show (Prog.bind _ _).result { s with eb := some it } = _
    rw [Prog.result_bind (hex (b := it) rfl)]
    refine hrd ?_
    show eWalk it = _
    unfold eWalk
    obtain ⟨e1, e2⟩ := eBegin_keeps h1
    have e3 : (it.cur.map (fun o => (o.map List.length).getD 0)).sum =
        (s.g.ks.map (fun o => (o.map (fun t => (K.edges t).length)).getD 0)).sum := by
      rw [e2, List.map_map]
      congr 1
      apply List.map_congr_left
      intro o _
      cases o <;> rfl
    rw [e3, e1, h2]; rfl
  | nodeLoop =>
    change (s.g.iface.nodeSeq >>= _) = _ at h
    rw [Res.bind_eq_ok] at h
    obtain ⟨b, h1, h2⟩ := h
    cases h2
    change (s.g.nodeAll _ >>= _) = _ at h1
    rw [Res.bind_eq_ok] at h1
    obtain ⟨m, h1, h2⟩ := h1
    cases h2
    show (Prog.bind _ _).result { s with nd := some s.g.nodeBegin } = _
    rw [Prog.result_bind (hex (b := s.g.nodeBegin) rfl)]
    refine hrd ?_
    show ndWalk s.g.nv s.g.nodeBegin = _
    unfold ndWalk
    unfold DK.nodeAll at h1
    rw [h1]; rfl
  | bfs r => exact hrd h
  | dfs r => exact hrd h
  | triangles => exact hrd h

end SG

/-- Everything a graph answers is right. -/
def DK.AnswersAll (g : DK K) (A : SGraph) : Prop := ∀ q : Query, q.Legal A.n → ∃ r, g.ask q = .ok r ∧ q.Right A r

namespace SG

theorem rprog_touches {α : Type} (t : RQ α) : (locs K).Touches (fun l => ∃ q, t.Asks q ∧ l ∈ touchR q)
    (fun l => ∃ q, t.Asks q ∧ l ∈ touchW q) (rprog t : Prog (SG K) RLoc α) := by
  induction t with
  | done a => exact trivial
  | ask q k ih =>
    refine Locs.Touches.bind ((qprog_touches q).mono (fun l hl => ⟨q, .inl rfl, hl⟩) (fun l hl => ⟨q, .inl rfl, hl⟩)) fun r => ?_
    exact (ih r).mono (fun l ⟨q', h1, h2⟩ => ⟨q', .inr ⟨r, h1⟩, h2⟩) (fun l ⟨q', h1, h2⟩ => ⟨q', .inr ⟨r, h1⟩, h2⟩)

theorem rprog_result {α : Type} {A : SGraph} (t : RQ α) : ∀ {s : SG K}, s.g.AnswersAll A → t.Legal A →
    ∃ a, (rprog t).result s = .ok a ∧ t.Right A a := by
  induction t with
  | done a => intro s _ _; exact ⟨a, rfl, rfl⟩
  | ask q k ih =>
    intro s hs ht
    obtain ⟨r, h1, h2⟩ := hs q ht.1
    obtain ⟨u, hu⟩ := Prog.exec_of_result (qprog_result h1)
    obtain ⟨a, h3, h4⟩ := ih r (s := u) (by rw [qprog_keeps hu]; exact hs) (ht.2 r h2)
    refine ⟨a, ?_, r, h2, h4⟩
    show (Prog.bind _ _).result s = _
    rw [Prog.result_bind hu, h3]

/-- The threads `ts` share one object. -/
def threads {α : Type} (ts : List (RQ α)) : List (Prog (SG K) RLoc α) := ts.map rprog

theorem apart_touch {α : Type} {ts : List (RQ α)} (h : Apart ts) :
    (∀ (i : Nat) (p : Prog (SG K) RLoc α), (threads ts)[i]? = some p → (locs K).Touches (fun l => ∃ (t : RQ α) (q : Query), ts[i]? = some t ∧ t.Asks q ∧ l ∈ touchR q)
      (fun l => ∃ (t : RQ α) (q : Query), ts[i]? = some t ∧ t.Asks q ∧ l ∈ touchW q) p) ∧
    ∀ i j : Nat, i ≠ j → ∀ l, (∃ (t : RQ α) (q : Query), ts[i]? = some t ∧ t.Asks q ∧ l ∈ touchW q) →
      ¬ (∃ (t : RQ α) (q : Query), ts[j]? = some t ∧ t.Asks q ∧ l ∈ touchR q) ∧ ¬ (∃ (t : RQ α) (q : Query), ts[j]? = some t ∧ t.Asks q ∧ l ∈ touchW q) := by
  refine ⟨fun i p hp => ?_, fun i j hij l ⟨t, q, h1, h2, h3⟩ => ⟨?_, ?_⟩⟩
  · rw [threads, List.getElem?_map, Option.map_eq_some_iff] at hp
    obtain ⟨t, ht, rfl⟩ := hp
    exact (rprog_touches t).mono (fun l ⟨q, h1, h2⟩ => ⟨t, q, ht, h1, h2⟩) (fun l ⟨q, h1, h2⟩ => ⟨t, q, ht, h1, h2⟩)
  · rintro ⟨t', q', h4, h5, h6⟩
    exact (touch_apart (h i j t t' hij h1 h4 q q' h2 h5) l h3).1 h6
  · rintro ⟨t', q', h4, h5, h6⟩
    exact (touch_apart (h i j t t' hij h1 h4 q q' h2 h5) l h3).2 h6

end SG
open SG

/-- What the user expects of the threads `ts` reading the object `s`, which holds the graph `A`: in every interleaving there is no
race, no call fails, what a thread returns results from right answers to its questions, and all threads can finish. -/
def ReadersOk {α : Type} (s : SG K) (A : SGraph) (ts : List (RQ α)) : Prop :=
  ∀ qs s' w, MExec (noWorker (SG K) RLoc) (threads ts) s () qs s' w →
    ¬ MRace (noWorker (SG K) RLoc) qs w ∧ (∀ q ∈ qs, ¬ CBad q s') ∧
    (∀ (i : Nat) (t : RQ α) (a : α), ts[i]? = some t → qs[i]? = some (.ret a) → t.Right A a) ∧
    ∃ rs s'', MExec (noWorker (SG K) RLoc) qs s' () rs s'' () ∧ AllDone rs

/-- C102 in full, for graphs built by insertions: any threads. -/
def C102_Full : Prop :=
  ∀ (K : K2Impl), K.Lawful → K.ForcedPure → ∀ (n : Nat) (es : List Edge) (s : SG K), 2 ≤ n → n ≤ 9999999 →
    (∀ e ∈ es, InRange n e) → DK.run K realSizing n (es.map Op.add) = .ok s.g →
    ∀ (ts : List (RQ Ans)), (∀ t ∈ ts, t.Legal ⟨n, es.toFinset⟩) → ReadersOk s ⟨n, es.toFinset⟩ ts

/-- On any object, whatever its history: threads whose questions do not clash never race, and each returns what it would return
alone. -/
theorem C102_alone_partial {α : Type} (s : SG K) {ts : List (RQ α)} (ha : Apart ts) {qs : List (Prog (SG K) RLoc α)} {s' : SG K} {w : Unit}
    (h : MExec (noWorker (SG K) RLoc) (threads ts) s () qs s' w) :
    ¬ MRace (noWorker (SG K) RLoc) qs w ∧
    ∀ (i : Nat) (t : RQ α) (a : α), ts[i]? = some t → qs[i]? = some (.ret a) →
      ∃ u, Exec (noWorker (SG K) RLoc) (rprog t) s () (.ret a) u () := by
  obtain ⟨h1, h2⟩ := apart_touch (K := K) ha
  obtain ⟨h3, h4, h5⟩ := h.apart h1 (fun i j _ _ => h2 i j)
  refine ⟨h5, fun i t a hi hq => ?_⟩
  have hp : (threads (K := K) ts)[i]? = some (rprog t) := by rw [threads, List.getElem?_map, hi]; rfl
  obtain ⟨_, u, hu, _⟩ := h4 i _ _ hp hq
  exact ⟨u, hu⟩

/-- On an object all of whose answers to one thread are right, they are right to several threads whose questions do not clash. -/
theorem readers_ok {α : Type} {s : SG K} {A : SGraph} (hs : s.g.AnswersAll A) {ts : List (RQ α)} (hl : ∀ t ∈ ts, t.Legal A)
    (ha : Apart ts) : ReadersOk s A ts := by
  intro qs s' w h
  obtain ⟨h1, h2⟩ := apart_touch (K := K) ha
  have hr : ∀ p ∈ threads (K := K) ts, ∃ a, p.result s = .ok a := by
    intro p hp
    rw [threads, List.mem_map] at hp
    obtain ⟨t, ht, rfl⟩ := hp
    obtain ⟨a, h3, _⟩ := rprog_result t hs (hl t ht)
    exact ⟨a, h3⟩
  obtain ⟨h3, h4, h5⟩ := h.apart_ok h1 (fun i j _ _ => h2 i j) hr
  refine ⟨(C102_alone_partial s ha h).1, h3, fun i t a hi hq => ?_, h5⟩
  have hp : (threads (K := K) ts)[i]? = some (rprog t) := by rw [threads, List.getElem?_map, hi]; rfl
  obtain ⟨b, h6, h7⟩ := rprog_result t hs (hl t (List.mem_of_getElem? hi))
  rw [h4 i _ a hp hq] at h6
  cases h6
  exact h7

/-! ## The graphs -/

/-- A graph that shows an edge set through its iterators answers every question rightly. -/
theorem DK.answersAll_of {g : DK K} {A : SGraph} (hf : g.iface.Faithful (· ∈ A.E)) (hnv : g.nv = A.n) (hc : g.nTotal = A.E.card) :
    g.AnswersAll A := by
  have hn : g.iface.nodes = A.n := hnv
  have halg := hf.algorithms
  rw [hn] at halg
  intro q hq
  cases q with
  | contains e =>
    obtain ⟨b, h1, h2⟩ := hf.contains e (by rw [hn]; exact hq)
    refine ⟨.bool b, ?_, h2⟩
    have h1 : g.contains e = .ok b := h1
    show (g.contains e >>= fun b => Res.ok (Ans.bool b)) = _
    rw [h1]; rfl
  | numberEdges =>
    refine ⟨_, rfl, ?_⟩
    show ((g.nTotal : Nat) : Int) = _
    exact_mod_cast hc
  | numberNodes =>
    refine ⟨_, rfl, ?_⟩
    show ((g.nv : Nat) : Int) = _
    exact_mod_cast hnv
  | neighbours x =>
    obtain ⟨l, h1, h2, h3⟩ := hf.listNb x (by rw [hn]; exact hq)
    refine ⟨.nodes l, ?_, h2, h3⟩
    have h1 : g.listNeighbour x = .ok l := h1
    show (g.listNeighbour x >>= fun l => Res.ok (Ans.nodes l)) = _
    rw [h1]; rfl
  | neighbourLoop x =>
    obtain ⟨l, h1, h2, h3⟩ := hf.nb x (by rw [hn]; exact hq)
    refine ⟨.nodes l, ?_, h2, h3⟩
    show (g.iface.nb x >>= fun l => Res.ok (Ans.nodes l)) = _
    rw [h1]; rfl
  | edgeLoop =>
    obtain ⟨l, h1, h2, h3⟩ := hf.edges
    refine ⟨.edges l, ?_, h2, h3⟩
    show (g.iface.edges >>= fun l => Res.ok (Ans.edges l)) = _
    rw [h1]; rfl
  | nodeLoop =>
    have h1 := hf.nodeSeq
    rw [hn] at h1
    refine ⟨.nodes (List.range A.n), ?_, rfl⟩
    show (g.iface.nodeSeq >>= fun l => Res.ok (Ans.nodes l)) = _
    rw [h1]; rfl
  | bfs r =>
    obtain ⟨p, h1, h2, h3, h4, h5⟩ := halg.bfs r hq (g.nv + 1) (by omega)
    refine ⟨.nodes p, ?_, h2, h3, h4, h5⟩
    show (g.iface.bfs (g.nv + 1) r >>= fun l => Res.ok (Ans.nodes l)) = _
    rw [h1]; rfl
  | dfs r =>
    obtain ⟨p, h1, h2, h3, h4⟩ := halg.dfs r hq (g.nv + 1) (by omega)
    refine ⟨.nodes p, ?_, h2, h3, h4⟩
    show (g.iface.dfs (g.nv + 1) r >>= fun l => Res.ok (Ans.nodes l)) = _
    rw [h1]; rfl
  | triangles =>
    refine ⟨.num (toInt (countTriples A.n (DirTriangle (· ∈ A.E)))), ?_, ?_⟩
    · show (g.iface.trianglesHash >>= fun l => Res.ok (Ans.num l)) = _
      rw [halg.triangles]; rfl
    · show _ ∧ _ ∧ _
      generalize countTriples A.n (DirTriangle (· ∈ A.E)) = m
      unfold toInt
      split <;> omega

theorem Holds.adds (hK : K.Lawful) (hF : K.ForcedPure) {S : Sizing} (hT : S.Top) : ∀ (es : List Edge) {g g' : DK K} {A : SGraph},
    Holds g A → (∀ e ∈ es, InRange A.n e) → DK.runFrom S g (es.map Op.add) = .ok g' → Holds g' ⟨A.n, A.E ∪ es.toFinset⟩ := by
  intro es
  induction es with
  | nil => intro g g' A h _ hr; cases hr; simpa using h
  | cons e es ih =>
    intro g g' A h hes hr
    obtain ⟨g1, h1, h2⟩ := h.add hK hF hT (hes e (by simp))
    change (g.addEdge S e >>= fun g' => DK.runFrom S g' (es.map Op.add)) = _ at hr
    rw [h1] at hr
    have h3 := ih (A := ⟨A.n, insert e A.E⟩) h2 (fun e' he' => hes e' (by simp [he'])) hr
    have : insert e A.E ∪ es.toFinset = A.E ∪ (e :: es).toFinset := by
      ext x
      simp only [List.toFinset_cons, Finset.mem_union, Finset.mem_insert, List.mem_toFinset]
      tauto
    rw [this] at h3
    exact h3

theorem inserts_answer (hK : K.Lawful) (hF : K.ForcedPure) {S : Sizing} (hT : S.Top) {n : Nat} {es : List Edge} {g : DK K} (h2 : 2 ≤ n)
    (hn : n ≤ 9999999) (hes : ∀ e ∈ es, InRange n e) (hr : DK.run K S n (es.map Op.add) = .ok g) :
    g.AnswersAll ⟨n, es.toFinset⟩ := by
  unfold DK.run DK.create at hr
  rw [if_neg (by omega), Res.ok_bind] at hr
  have h := Holds.adds hK hF hT es (Holds.init (K := K) S h2 hn) hes hr
  have e : (∅ : Finset Edge) ∪ es.toFinset = es.toFinset := by simp
  rw [e] at h
  exact DK.answersAll_of (h.faithful hK) h.nv h.card

/-- The set of edges of a history. -/
def setOf (ops : List Op) : Finset Edge := (Win.run ops).present.toFinset

theorem mem_setOf {ops : List Op} {e : Edge} : e ∈ setOf ops ↔ specMem ops e := by
  rw [setOf, List.mem_toFinset, (Win.present_spec ops).2]

theorem answers_of_shows {g : DK K} {n : Nat} {ops : List Op} (hf : g.iface.Faithful (specMem ops)) (hn : g.nv = n)
    (hc : g.nTotal = (Win.run ops).present.length) : g.AnswersAll ⟨n, setOf ops⟩ := by
  have e : specMem ops = fun x => x ∈ (⟨n, setOf ops⟩ : SGraph).E := by
    funext x
    exact propext mem_setOf.symm
  rw [e] at hf
  refine DK.answersAll_of hf hn ?_
  rw [hc]
  show _ = (Win.run ops).present.toFinset.card
  rw [List.toFinset_card_of_nodup (Win.present_spec ops).1]

/-! ## C102 -/

/-- C102 for a graph built by insertions, with any number of threads whose questions do not clash: `contains`, `list_neighbour`
and the counters from every thread, and loops of each kind from one thread each. -/
theorem C102_inserts_partial {α : Type} (hK : K.Lawful) (hF : K.ForcedPure) {n : Nat} {es : List Edge} {s : SG K} (h2 : 2 ≤ n)
    (hn : n ≤ 9999999) (hes : ∀ e ∈ es, InRange n e) (hr : DK.run K realSizing n (es.map Op.add) = .ok s.g) {ts : List (RQ α)}
    (hl : ∀ t ∈ ts, t.Legal ⟨n, es.toFinset⟩) (ha : Apart ts) : ReadersOk s ⟨n, es.toFinset⟩ ts :=
  readers_ok (inserts_answer hK hF realSizing_top h2 hn hes hr) hl ha

/-- C102 for a graph with rare, settled deletions (C87). -/
theorem C102_settled_partial {α : Type} (hK : K.Lawful) (hF : K.ForcedPure) (hM : K.MarksOne) {n B M : Nat} (h2 : 2 ≤ n)
    (hn : n ≤ 9999999) (hMx : M ≤ 2 ^ 64) (hB : ∀ k, k ≤ M → realSizing.maxsz (max n k) 0 ≤ B) {ops : List Op} (hs : Settled n B M ops)
    {s : SG K} (hr : DK.run K realSizing n ops = .ok s.g) {ts : List (RQ α)} (hl : ∀ t ∈ ts, t.Legal ⟨n, setOf ops⟩)
    (ha : Apart ts) : ReadersOk s ⟨n, setOf ops⟩ ts := by
  obtain ⟨g, h1, h3, h4⟩ := C87_settled hK hF hM h2 hMx hB hs
  rw [hr] at h1
  cases h1
  exact readers_ok (answers_of_shows (h4 hn).1 h3.nodes h3.edges) hl ha

/-- C102 for `DKtree_delay`, with rare, settled deletions (C89): merge pending or not. -/
theorem C102_delay_partial {α : Type} (hK : K.Lawful) (hM : K.MarksOne) {n B M : Nat} (h2 : 162 ≤ n) (hn : n ≤ 9999999)
    (hMx : M ≤ 2 ^ 64) (hB8 : 8 ≤ B) (hB : ∀ k, k ≤ M → realSizing.maxsz (max n k) 0 ≤ B) {ops : List Op} (hs : Settled n B M ops)
    (nd : Bool) {d : DKD K} (hr : DKD.run nd K realSizing n ops = .ok d) {s : SG K} (hg : s.g = d.g) {ts : List (RQ α)}
    (hl : ∀ t ∈ ts, t.Legal ⟨n, setOf ops⟩) (ha : Apart ts) : ReadersOk s ⟨n, setOf ops⟩ ts := by
  obtain ⟨d', h1, h3, h4⟩ := C89_settled hK hM h2 hMx hB8 hB hs
  have h1 := h1 nd
  rw [hr] at h1
  cases h1
  refine readers_ok ?_ hl ha
  rw [hg]
  exact answers_of_shows (h4 hn).1 h3.nodes h3.edges

/-- Every clash is a race, at the first step, whatever the graph. -/
theorem C102_clash {q q' : Query} (h : q.Clash q') (k k' : Ans → RQ Ans) :
    MRace (noWorker (SG K) RLoc) (threads [.ask q k, .ask q' k']) () := by
  refine Or.inl ⟨0, 1, _, _, by decide, rfl, rfl, ?_⟩
  have hc : ∀ {l : RLoc} {a b : Acc RLoc}, l ∈ a.wr → l ∈ b.rd ∨ l ∈ b.wr → a.Conflict b := fun h1 h2 => Or.inl ⟨_, h1, h2⟩
  have hc' : ∀ {l : RLoc} {a b : Acc RLoc}, l ∈ a.rd → l ∈ b.wr → a.Conflict b := fun h1 h2 => Or.inr ⟨_, h1, h2⟩
  cases q <;> cases q' <;> simp [Query.Clash, Query.iters, Query.loop, Query.algorithm] at h <;>
    first
      | (refine hc (l := .nbIt) ?_ ?_ <;> decide)
      | (refine hc (l := .eIt) ?_ ?_ <;> decide)
      | (refine hc (l := .nodeIt) ?_ ?_ <;> decide)
      | (refine hc (l := .treeNb) ?_ ?_ <;> decide)
      | (refine hc (l := .treeE) ?_ ?_ <;> decide)
      | (refine hc' (l := .nbIt) ?_ ?_ <;> decide)
      | (refine hc' (l := .eIt) ?_ ?_ <;> decide)
      | (refine hc' (l := .nodeIt) ?_ ?_ <;> decide)

/-- Two threads loop over the neighbours of `x` and of `y`: some interleaving makes the loop over `x` visit the neighbours of
`y`. -/
theorem C102_swapped {s : SG K} {x y : Nat} {r r' : Ans} (hx : s.g.ask (.neighbourLoop x) = .ok r)
    (hy : s.g.ask (.neighbourLoop y) = .ok r') :
    ∃ qs s', MExec (noWorker (SG K) RLoc) (threads [.ask (.neighbourLoop x) .done, .ask (.neighbourLoop y) .done]) s () qs s' () ∧
      qs[0]? = some (.ret r') := by
  have split : ∀ {x : Nat} {r : Ans}, s.g.ask (.neighbourLoop x) = .ok r → ∃ it, s.g.nbBegin x = .ok it ∧ nbWalk s.g x it = .ok r := by
    intro x r h
    change (s.g.iface.nb x >>= _) = _ at h
    rw [Res.bind_eq_ok] at h
    obtain ⟨b, h1, h2⟩ := h
    cases h2
    change (s.g.listNeighbour x >>= _) = _ at h1
    rw [Res.bind_eq_ok] at h1
    obtain ⟨l, h1, h2⟩ := h1
    rw [Res.bind_eq_ok] at h2
    obtain ⟨m, h2, h3⟩ := h2
    cases h3
    unfold DK.nbAll at h2
    rw [Res.bind_eq_ok] at h2
    obtain ⟨it, h2, h3⟩ := h2
    refine ⟨it, h2, ?_⟩
    unfold nbWalk
    rw [h1, Res.ok_bind, h3]; rfl
  obtain ⟨ix, bx, _⟩ := split hx
  obtain ⟨iy, bY, wy⟩ := split hy
  have c1 := MExec.caller (W := noWorker (SG K) RLoc) (w := ()) (i := 0) (.start (s := s)
    (ps := threads [.ask (.neighbourLoop x) .done, .ask (.neighbourLoop y) .done])) rfl
    (.act (s' := { s with nb := some (x, ix) }) (b := ()) (by show (s.g.nbBegin x >>= _) = _; rw [bx]; rfl))
  have c2 := MExec.caller (i := 1) c1 rfl
    (.act (s' := { s with nb := some (y, iy) }) (b := ()) (by show (s.g.nbBegin y >>= _) = _; rw [bY]; rfl))
  have c3 := MExec.caller (i := 0) c2 rfl (.act (s' := { s with nb := some (y, iy) }) (b := (y, iy)) rfl)
  have c4 := MExec.caller (i := 0) c3 rfl (.act (s' := { s with nb := some (y, iy) }) (b := r')
    (by show (nbWalk s.g y iy >>= _) = _; rw [wy]; rfl))
  exact ⟨_, _, c4, rfl⟩

/-- C102 is false: two threads that loop over neighbours race … -/
theorem C102_refuted : ¬ C102_Full := by
  intro h
  obtain ⟨g, h1, _⟩ := C02_insert_only refK2_lawful refK2_forcedPure (n := 3) (by decide) (es := [(0, 1)]) (by decide)
  have := h refK2 refK2_lawful refK2_forcedPure 3 [(0, 1)] ⟨g, none, none, none⟩ (by decide) (by decide) (by decide) h1
    [.ask (.neighbourLoop 0) .done, .ask (.neighbourLoop 1) .done]
    (by
      intro t ht
      simp only [List.mem_cons, List.not_mem_nil, or_false] at ht
      rcases ht with rfl | rfl
      · exact ⟨(by decide : 0 < 3), fun _ _ => trivial⟩
      · exact ⟨(by decide : 1 < 3), fun _ _ => trivial⟩)
  exact (this _ _ _ .start).1 (C102_clash (by decide) _ _)

/-- … and can get wrong answers: with the single edge `(0,1)`, the loop over the neighbours of 0 visits nothing. -/
theorem C102_wrong : ∃ (s : SG refK2) (qs : List (Prog (SG refK2) RLoc Ans)) (s' : SG refK2),
    DK.run refK2 realSizing 3 [.add (0, 1)] = .ok s.g ∧
    MExec (noWorker _ _) (threads [.ask (.neighbourLoop 0) .done, .ask (.neighbourLoop 1) .done]) s () qs s' () ∧
    qs[0]? = some (.ret (.nodes [])) ∧ ¬ (Query.neighbourLoop 0).Right ⟨3, {(0, 1)}⟩ (.nodes []) := by
  obtain ⟨g, h1, _⟩ := C02_insert_only refK2_lawful refK2_forcedPure (n := 3) (by decide) (es := [(0, 1)]) (by decide)
  have ha := inserts_answer refK2_lawful refK2_forcedPure realSizing_top (by decide) (by decide) (by decide) h1
  obtain ⟨r, a1, _⟩ := ha (.neighbourLoop 0) (by decide : 0 < 3)
  obtain ⟨r', b1, b2⟩ := ha (.neighbourLoop 1) (by decide : 1 < 3)
  have hr' : r' = .nodes [] := by
    cases r' with
    | nodes l =>
      have b3 : ∀ y, y ∈ l ↔ (1, y) ∈ ([(0, 1)] : List Edge).toFinset := b2.2
      congr 1
      apply List.eq_nil_iff_forall_not_mem.2
      intro y hy
      have := (b3 y).1 hy
      simp at this
    | _ => exact b2.elim
  subst hr'
  obtain ⟨qs, s', c1, c2⟩ := C102_swapped (s := ⟨g, none, none, none⟩) a1 b1
  refine ⟨⟨g, none, none, none⟩, qs, s', h1, c1, c2, ?_⟩
  rintro ⟨_, h⟩
  have := (h 1).2 (by decide)
  cases this

/-- Instance: a thread that asks for an edge and then for the neighbours of its end, one that loops over the edges, one that loops
over the vertices and one that loops over the neighbours of 2. -/
example : ∃ (s : SG refK2) (ts : List (RQ Ans)), ts.length = 4 ∧
    DK.run refK2 realSizing 4 (([(0, 1), (1, 2), (2, 3)] : List Edge).map Op.add) = .ok s.g ∧
    (∀ t ∈ ts, t.Legal ⟨4, ([(0, 1), (1, 2), (2, 3)] : List Edge).toFinset⟩) ∧ Apart ts := by
  obtain ⟨g, h1, _⟩ := C02_insert_only refK2_lawful refK2_forcedPure (n := 4) (by decide) (es := [(0, 1), (1, 2), (2, 3)]) (by decide)
  let ts : List (RQ Ans) := [.ask (.contains (0, 1)) fun r => if r = .bool true then .ask (.neighbours 1) .done else .done r,
    .ask .edgeLoop .done, .ask .nodeLoop .done, .ask (.neighbourLoop 2) .done]
  refine ⟨⟨g, none, none, none⟩, ts, rfl, h1, ?_, ?_⟩
  · intro t ht
    simp only [ts, List.mem_cons, List.not_mem_nil, or_false] at ht
    rcases ht with rfl | rfl | rfl | rfl
    · refine ⟨(by decide : InRange 4 (0, 1)), fun r _ => ?_⟩
      show RQ.Legal _ (if r = .bool true then _ else _)
      split
      · exact ⟨(by decide : 1 < 4), fun _ _ => trivial⟩
      · exact trivial
    all_goals exact ⟨by first | exact trivial | exact (by decide : 2 < 4), fun _ _ => trivial⟩
  · have asks : ∀ (i : Nat) (t : RQ Ans) (q : Query), ts[i]? = some t → t.Asks q →
        (i = 0 ∧ q.iters = [] ∧ q.loop = false ∧ q.algorithm = false) ∨ (i ≠ 0 ∧ q.iters = [if i = 1 then 1 else if i = 2 then 2 else 0] ∧ q.algorithm = false) := by
      intro i t q hi hq
      have hdone : ∀ {q q' : Query}, RQ.Asks q (.ask q' (.done : Ans → RQ Ans)) → q = q' := by
        rintro q q' (h | ⟨_, h⟩)
        · exact h
        · exact h.elim
      match i, hi with
      | 0, hi =>
        cases hi
        rcases hq with rfl | ⟨r, hq⟩
        · exact .inl ⟨rfl, rfl, rfl, rfl⟩
        · change RQ.Asks q (if r = .bool true then _ else _) at hq
          split at hq
          · cases hdone hq; exact .inl ⟨rfl, rfl, rfl, rfl⟩
          · exact hq.elim
      | 1, hi => cases hi; cases hdone hq; exact .inr ⟨by decide, rfl, rfl⟩
      | 2, hi => cases hi; cases hdone hq; exact .inr ⟨by decide, rfl, rfl⟩
      | 3, hi => cases hi; cases hdone hq; exact .inr ⟨by decide, rfl, rfl⟩
      | i + 4, hi => cases hi
    intro i j t t' hij hi hj q q' hq hq' hc
    have hi4 : i < 4 := (List.getElem?_eq_some_iff.1 hi).1
    have hj4 : j < 4 := (List.getElem?_eq_some_iff.1 hj).1
    rcases asks i t q hi hq with ⟨rfl, a1, a2, a3⟩ | ⟨i0, a1, a3⟩ <;>
      rcases asks j t' q' hj hq' with ⟨rfl, b1, b2, b3⟩ | ⟨j0, b1, b3⟩ <;>
      rcases hc with ⟨k, c1, c2⟩ | ⟨c1, c2⟩ | ⟨c1, c2⟩ <;> simp_all
    split_ifs at c2 <;> omega

end DK2
