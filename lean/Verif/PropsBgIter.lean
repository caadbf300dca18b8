import Verif.BgIter
/-!
# C65: loops over iterators and `Algorithm` on the background variants
-/

namespace DK2
namespace BG
open DK
variable {K : K2Impl}

/-! ## The programs evaluated in one state -/

theorem runAt_read {α β : Type} {acc : Acc BLoc} {f : BG K → Res β} {k : β → BProg K α} {s : BG K} :
    runAt ((Prog.read acc f).bind k) s = f s >>= fun b => runAt (k b) s := by
  show runAt (Prog.act acc _ _) s = _
  simp only [runAt]
  cases f s <;> rfl

theorem runAt_bind {α β : Type} {p : BProg K α} {s : BG K} (hr : ReadsOnly p s) {f : α → BProg K β} :
    runAt (p.bind f) s = runAt p s >>= fun a => runAt (f a) s := by
  induction p with
  | ret a => rfl
  | act acc g k ih =>
    show runAt (Prog.act acc g _) s = _
    simp only [runAt]
    cases hg : g s with
    | ok r =>
      obtain ⟨rfl, h2⟩ := hr r.1 r.2 hg
      simp only [Res.ok_bind]
      exact ih _ h2
    | _ => rfl
  | wait c k ih =>
    show runAt (Prog.wait c _) s = _
    simp only [runAt]
    cases c s with
    | true => rw [if_pos rfl, if_pos rfl]; exact ih hr
    | false => rw [if_neg Bool.false_ne_true, if_neg Bool.false_ne_true]; rfl

theorem edgeLoop_readsOnly (s : BG K) : ReadsOnly edgeLoop s :=
  ReadsOnly.read (k := .ret) fun _ _ => trivial

theorem ReadsOnly.bind {α β : Type} {p : BProg K α} {s : BG K} (hp : ReadsOnly p s) {f : α → BProg K β}
    (hf : ∀ a, ReadsOnly (f a) s) : ReadsOnly (p.bind f) s := by
  induction p with
  | ret a => exact hf a
  | act acc g k ih => exact fun s' b hg => ⟨(hp s' b hg).1, ih b (hp s' b hg).2⟩
  | wait c k ih => exact ih hp

theorem neighRest_readsOnly (x : Nat) (s : BG K) : ∀ (f : Nat) (it : NbIt), ReadsOnly (neighRest x f it) s := by
  intro f
  induction f with
  | zero => intro it; exact ReadsOnly.read (k := .ret) fun _ _ => trivial
  | succ f ih =>
    intro it
    unfold neighRest
    split
    · exact trivial
    · exact ReadsOnly.read fun it' _ => ReadsOnly.bind (ih it') fun _ => trivial

theorem neighLoop_readsOnly (x f : Nat) (s : BG K) : ReadsOnly (neighLoop x f) s :=
  ReadsOnly.read fun it _ => neighRest_readsOnly x s f it

theorem runAt_neighRest (x : Nat) (s : BG K) : ∀ (f : Nat) (it : NbIt),
    runAt (neighRest x f it) s = drive nbCur (s.g.nbNext x) f it := by
  intro f
  induction f with
  | zero => intro it; rfl
  | succ f ih =>
    intro it
    simp only [neighRest, drive]
    cases nbCur it with
    | none => rfl
    | some y =>
      simp only
      rw [runAt_read]
      cases s.g.nbNext x it with
      | ok it' =>
        simp only [Res.ok_bind]
        rw [runAt_bind (neighRest_readsOnly x s f it'), ih]
        cases drive nbCur (s.g.nbNext x) f it' <;> rfl
      | _ => rfl

theorem runAt_neighLoop (x f : Nat) (s : BG K) : runAt (neighLoop x f) s = s.g.nbAll x f := by
  unfold neighLoop DK.nbAll
  rw [runAt_read]
  cases s.g.nbBegin x with
  | ok it => simp only [Res.ok_bind]; exact runAt_neighRest x s f it
  | _ => rfl

theorem runAt_edgeLoop (s : BG K) : runAt edgeLoop s = s.g.iface.edges := by
  show runAt ((Prog.read _ _).bind .ret) s = _
  rw [runAt_read]
  cases s.g.iface.edges <;> rfl

theorem evalAt_of_runAt {α : Type} {p : BProg K α} {s : BG K} (hr : ReadsOnly p s) {a : α} (h : runAt p s = .ok a) :
    evalAt p s = some a := by
  induction p with
  | ret b => simp only [runAt] at h; cases h; rfl
  | act acc g k ih =>
    simp only [runAt] at h
    rw [Res.bind_eq_ok] at h
    obtain ⟨r, h1, h2⟩ := h
    obtain ⟨h3, h4⟩ := hr r.1 r.2 h1
    rw [h3] at h2
    simp only [evalAt, h1]
    exact ih _ h4 h2
  | wait c k ih =>
    simp only [runAt] at h
    simp only [evalAt]
    cases hc : c s with
    | true => rw [hc, if_pos rfl] at h; rw [if_pos rfl]; exact ih hr h
    | false => rw [hc, if_neg Bool.false_ne_true] at h; cases h

/-- With nothing pending, the background graph shows `Algorithm` what a `DKtree` with the same contents shows. -/
theorem iface_eq {s : BG K} (hn : s.needs = false) (hw : s.g.c0.WF) (ha : s.g.NoneAbove) : s.iface = s.g.iface := by
  have hc : ∀ e, runAt (contains e) s = s.g.contains e := by
    intro e
    have h := hw.contains_eq e
    cases hb : decide (e ∈ s.g.c0.live) with
    | true => rw [hb] at h; simp [contains, runAt_read, h, runAt, DK.contains]
    | false =>
      rw [hb] at h
      simp only [contains, runAt_read, h, DK.contains, Res.ok_bind, Bool.false_eq_true, if_false, containsTrees, readNeeds, hn]
      simp only [Prog.read, runAt, Res.ok_bind, treesContain_take ha]
  have hl : ∀ x, runAt (listNeighbour x) s = s.g.listNeighbour x := by
    intro x
    simp only [listNeighbour, runAt_read, hw.listNeighbours_eq x, DK.listNeighbour, Res.ok_bind, readNeeds, hn,
      Bool.false_eq_true, if_false, runAt]
  unfold iface DK.iface
  congr 1
  · funext x
    simp only [hl, runAt_neighLoop]
  · funext x; exact hl x
  · exact runAt_edgeLoop s
  · funext e; exact hc e

/-! ## What a loop over the edges returns -/

theorem J.winv (hK : K.Lawful) {S : Sizing} {c : JC} {lv cv : List Edge} {x : Nat} {s : BG K} {w : WPC K.T}
    (hJ : J S c lv cv x s w) : s.g.WInv := by
  refine ⟨hJ.c0wf, hJ.c0nv, hJ.len, ?_, hJ.maxR, ?_⟩
  · rw [hJ.nv]; exact hJ.val
  · rw [hJ.nv]
    intro e he
    rcases List.mem_append.1 he with he | he
    · exact hJ.rangeC e he
    · obtain ⟨t, h1, h2⟩ := mem_flat.1 he
      exact hK.edges_range _ t (hJ.val t h1) e h2

theorem edges_eq {g : DK K} (hw : g.WInv) (hne : g.NoEmptyTree) (hm : g.c0.marked = 0) (h0 : g.nv ≠ 0)
    (hn : g.nv ≤ 9999999) : g.iface.edges = .ok g.edgesOf := by
  have hE : slots g.c0 ++ flat K g.ks = g.edgesOf := by rw [slots_eq_live hw.c0wf hm]; rfl
  have hfuel : (slots g.c0 ++ flat K g.ks).length < g.c0.elementsNodes.length +
      (g.ks.map (fun o => (o.map (fun t => (K.edges t).length)).getD 0)).sum + 1 := by
    have h1 : (slots g.c0).length ≤ g.c0.elementsNodes.length := by
      have e1 := hw.c0wf.size_eq; have e2 := hw.c0wf.live_length
      have e3 : g.c0.liveSlots.length ≤ g.c0.nElements := by
        unfold C0.liveSlots
        exact le_trans (List.length_filter_le _ _) (by simp)
      have e4 := hw.c0wf.n_le
      have e5 := hw.c0wf.len_en
      simp only [slots, List.length_map, List.length_range]
      omega
    have h2 : ∀ ks : List (Option K.T), (flat K ks).length =
        (ks.map (fun o => (o.map (fun t => (K.edges t).length)).getD 0)).sum := by
      intro ks
      induction ks with
      | nil => rfl
      | cons o ks ih => cases o <;> simp [ih]
    rw [List.length_append, h2]; omega
  show g.eAll 0 _ = _
  rw [hw.eAll_eq h0 hne (by
    rw [hE]
    intro hc
    have := (hw.range _ hc).1
    have h' : maxEdge.1 = 9999999 := rfl
    omega) _ hfuel, hE]

/-- A loop over the edges takes its copies in one state of the object. -/
theorem edgeLoop_exec {wv : Bool} {S : Sizing} {n : Nat} {ops : List Op} {s s' : BG K} {w w' : WPC K.T} {p : BProg K (List Edge)}
    (hr : Reach wv K S n ops s w) (hx : Exec (worker K S) edgeLoop s w p s' w') :
    Reach wv K S n ops s' w' ∧
      (p = edgeLoop ∨ ∃ l s1 w1, p = .ret l ∧ Reach wv K S n ops s1 w1 ∧ s1.g.iface.edges = .ok l) := by
  induction hx with
  | start => exact ⟨hr, Or.inl rfl⟩
  | caller hx hs ih =>
    obtain ⟨h1, h2⟩ := ih
    rcases h2 with rfl | ⟨l, _, _, rfl, _, _⟩
    · cases hs with
      | act hf =>
        rw [Res.bind_eq_ok] at hf
        obtain ⟨a, h3, h4⟩ := hf
        cases h4
        exact ⟨h1, Or.inr ⟨_, _, _, rfl, h1, h3⟩⟩
    · cases hs
  | worker hx hs ih =>
    obtain ⟨h1, h2⟩ := ih
    exact ⟨.work h1 hs, h2⟩

/-! ## C65 -/

/-- C65: after any insertions, on any schedule, a loop over the edges visits exactly the inserted edges, each once, without
a data race. -/
def C65_Full (wv : Bool) : Prop :=
  ∀ K : K2Impl, K.Lawful → ∀ n es (s : BG K) w, n ≤ 9999999 → (∀ e ∈ es, InRange n e) →
    Reach wv K realSizing n (inserts es) s w →
    RaceFree realSizing edgeLoop s w ∧ Answers realSizing edgeLoop s w (fun l => l.Nodup ∧ ∀ e, e ∈ l ↔ e ∈ es)

/-- While the merge is pending the loop misses the edges in the worker's hands, although no thread moves meanwhile. -/
theorem C65_refuted (wv : Bool) : ¬ C65_Full wv := by
  intro h
  have hx : playTest wv hybSizing 5 evHidden (fun s w => callTest hybSizing edgeLoop 1 (fun l => decide ((0, 1) ∉ l)) s w) =
      true := by
    cases wv <;> decide +kernel
  obtain ⟨s, w, h1, h2⟩ := playTest_sound (by decide) hx
  obtain ⟨b, s', w', h3, h4⟩ := callTest_sound (p := fun _ => edgeLoop) h2
  have h5 := ((h refK2 refK2_lawful 5 [(0, 1), (1, 2)] s w (by decide) (by decide) h1).2.2 b s' w' h3).2 (0, 1)
  simp only [decide_eq_true_eq] at h4
  exact h4 (h5.2 (by decide))

/-- The copies are taken without synchronisation: the loop races with a pending merge. -/
theorem C65_race_refuted (wv : Bool) : ∃ (s : BG refK2) (w : WPC refK2.T),
    Reach wv refK2 realSizing 5 (inserts [(0, 1), (1, 2)]) s w ∧ ¬ RaceFree realSizing edgeLoop s w ∧
      ¬ RaceFree realSizing (neighLoop 0 5) s w := by
  have hx : playTest wv hybSizing 5 (evHidden ++ [.work, .work, .work, .work]) (fun _ w =>
      raceB edgeLoop w && raceB (neighLoop 0 5) w) = true := by
    cases wv <;> decide +kernel
  obtain ⟨s, w, h1, h2⟩ := playTest_sound (by decide) hx
  rw [Bool.and_eq_true] at h2
  exact ⟨s, w, h1, fun h => h _ _ _ .start (raceB_sound h2.1), fun h => h _ _ _ .start (raceB_sound h2.2)⟩

/-- Also with nothing pending: an edge inserted again while the worker held it is visited twice. -/
theorem C65_dup_refuted (wv : Bool) : ∃ (s : BG refK2) (w : WPC refK2.T),
    Reach wv refK2 realSizing 5 (inserts [(0, 1), (1, 2), (0, 1)]) s w ∧ s.needs = false ∧
      ¬ Answers realSizing edgeLoop s w (fun l => l.Nodup) := by
  have hx : playTest wv hybSizing 5 (evHidden ++ [alone (.add (0, 1)) 5] ++ List.replicate 10 .work)
      (fun s w => !s.needs && callTest hybSizing edgeLoop 1 (fun l => decide (¬ l.Nodup)) s w) = true := by
    cases wv <;> decide +kernel
  obtain ⟨s, w, h1, h2⟩ := playTest_sound (by decide) hx
  rw [Bool.and_eq_true] at h2
  obtain ⟨b, s', w', h3, h4⟩ := callTest_sound (p := fun _ => edgeLoop) h2.2
  refine ⟨s, w, h1, by simpa using h2.1, fun h => ?_⟩
  simp only [decide_eq_true_eq] at h4
  exact h4 (h.2 b s' w' h3)

/-- The loops and the algorithms see exactly the edges `E`, without data races. -/
structure Shows (S : Sizing) (n : Nat) (E : Edge → Prop) (s : BG K) (w : WPC K.T) : Prop where
  raceE : RaceFree S edgeLoop s w
  edges : Answers S edgeLoop s w (fun l => l.Nodup ∧ ∀ e, e ∈ l ↔ E e)
  raceN : ∀ x f, x < n → RaceFree S (neighLoop x f) s w
  neigh : ∀ x, x < n → ∃ l : List Nat, l.Nodup ∧ (∀ y, y ∈ l ↔ E (x, y)) ∧
    ∀ f, l.length < f → Answers S (neighLoop x f) s w (fun m => m = l.map (fun y : Nat => (y : Int)))
  faithful : s.iface.Faithful E
  algo : s.iface.Algorithms n E

theorem shows_of (hK : K.Lawful) {S : Sizing} {n : Nat} {E : Edge → Prop} {c : JC} {s : BG K} {w : WPC K.T}
    (hJ : JJ S c s w) (hn : c.n = n) (hD : ∀ e, ¬ c.D e) (hG : ∀ e, c.G e ↔ E e) (hne : NE n s w) (hi : s.needs = false)
    (hm : s.g.c0.marked = 0) (h0 : n ≠ 0) (hn9 : n ≤ 9999999) : Shows S n E s w := by
  have hw : s.g.WInv := hJ.winv hK
  have hp : pend s w = [] := (hJ.stage.idle hi).2.1
  have hnv : s.g.nv = n := hne.nv
  have hst : stored s.g.c0.live s w = s.g.edgesOf := by unfold stored; rw [hp]; rfl
  have hInv : s.g.Inv := ⟨hw, by rw [← hst]; exact nodup_of_count (fun e => hJ.one e (hD e))⟩
  have hmem : ∀ e, e ∈ s.g.edgesOf ↔ E e := fun e => by rw [← hG e, ← hst]; exact (hJ.mem e).symm
  have hcnt : s.g.nTotal = s.g.edgesOf.length := by rw [← hst]; exact (hJ.num hD).symm
  have hF := DK.faithful_of hK hInv hJ.above hne.lev hm (by omega) (by omega) hmem hcnt
  have hq : Quiet s w := ⟨hi, hJ.run, (hJ.stage.idle hi).1⟩
  have hif := iface_eq hi hJ.c0wf hJ.above
  have hE := hq.answers (S := S) (edgeLoop_readsOnly s) (a := s.g.edgesOf) (Q := fun l => l.Nodup ∧ ∀ e, e ∈ l ↔ E e)
    (evalAt_of_runAt (edgeLoop_readsOnly s)
      (by rw [runAt_edgeLoop]; exact edges_eq hw hne.lev hm (by omega) (by omega))) ⟨hInv.nodup, hmem⟩
  refine ⟨hE.1, hE.2, ?_, ?_, ?_, ?_⟩
  · intro x f hx p' s' w' hxx hrace
    obtain ⟨_, ⟨_, _, h3⟩, _⟩ := hq.exec (neighLoop_readsOnly x f s) hxx
    cases p' with
    | ret a => exact hrace
    | act acc f k => exact no_conflict_idle h3 hrace
    | wait c k => exact hrace
  · intro x hx
    obtain ⟨l, a1, a2, a3⟩ := hInv.listNeighbour hK hJ.above (x := x) (by rw [hnv]; exact hx)
    obtain ⟨l', b1, b2⟩ := hw.nbAll_eq x
    rw [a1] at b1; cases b1
    have hlt : ∀ y ∈ l, y < n := fun y hy => by rw [← hnv]; exact (hInv.range _ ((a3 y).1 hy)).2
    refine ⟨l, a2, fun y => by rw [a3, hmem], fun f hf => ?_⟩
    refine (hq.answers (neighLoop_readsOnly x f s) (a := l.map toInt) (evalAt_of_runAt (neighLoop_readsOnly x f s) ?_) ?_).2
    · rw [runAt_neighLoop]
      refine b2 ?_ f hf
      intro y hy
      rw [toInt_of_lt (by have := hlt y hy; omega)]
      omega
    · exact toInt_small (n := n) (by omega) hlt
  · rw [hif]; exact hF
  · rw [hif]
    have : s.g.iface.nodes = n := hnv
    exact this ▸ hF.algorithms

/-- With nothing pending, no edge re-inserted and no erased slot in the buffer, on every history and schedule: the loops are
race-free and exact, and every algorithm computes on exactly the edges of the graph. -/
theorem C65_idle_partial (hK : K.Lawful) (S : Sizing) (wv : Bool) {n : Nat} (h0 : n ≠ 0) (hn : n ≤ 9999999) {ops : List Op}
    {s : BG K} {w : WPC K.T} (ho : OpsInRange n ops) (hr : Reach wv K S n ops s w) (hno : ∀ e, ¬ ReAdded ops e)
    (hi : s.needs = false) (hm : s.g.c0.marked = 0) : Shows S n (specMem ops) s w := by
  obtain ⟨c, hc⟩ := hr.track hK ho
  have hgh : ∀ e, ¬ Ghost ops e := by
    rintro e ⟨pre, post, h1, p1, p2, h2, h3⟩
    exact hno e ⟨p1, p2 ++ Op.del e :: post, by rw [h1, h2]; simp, h3⟩
  exact shows_of hK hc.inv hc.n (fun e h => hno e (hc.D e h))
    (fun e => ⟨fun h => (hc.only e h).resolve_right (hgh e), hc.keep e⟩) (hr.ne hK S ho) hi hm h0 hn

/-- The same for a caller that modifies the graph only while nothing is pending; re-insertions are allowed. -/
theorem C65_calm_partial (hK : K.Lawful) (S : Sizing) (wv : Bool) {n : Nat} (h0 : n ≠ 0) (hn : n ≤ 9999999) {ops : List Op}
    {s : BG K} {w : WPC K.T} (ho : OpsInRange n ops) (hr : Calm wv K S n ops s w)
    (hi : s.needs = false) (hm : s.g.c0.marked = 0) : Shows S n (specMem ops) s w := by
  obtain ⟨c, hcn, ht, hD, hJ, hG⟩ := hr.track hK S ho
  exact shows_of hK hJ hcn hD hG (hr.reach.ne hK S ho) hi hm h0 hn

theorem specMem_inserts (es : List Edge) (e : Edge) : specMem (inserts es) e ↔ e ∈ es := by
  rw [specMem_iff_specRun, DK.specRun_inserts]

theorem noReAdd {es : List Edge} (hd : es.Nodup) : ∀ e, ¬ ReAdded (inserts es) e := by
  rintro e ⟨pre, post, h1, h2⟩
  obtain ⟨l1, l2, rfl, h3, h4⟩ := List.map_eq_append_iff.1 h1
  cases l2 with
  | nil => simp at h4
  | cons a l2 =>
    simp only [List.map_cons, List.cons.injEq, Op.add.injEq] at h4
    obtain ⟨rfl, _⟩ := h4
    rw [← h3] at h2
    have : a ∈ l1 := (specMem_inserts l1 a).1 h2
    exact (List.nodup_append.1 hd).2.2 a this a (by simp) rfl

/-- After any insertions of distinct edges, with nothing pending. -/
theorem C65_insert_partial (hK : K.Lawful) (S : Sizing) (wv : Bool) {n : Nat} (h2 : 2 ≤ n) (hn : n ≤ 9999999)
    {es : List Edge} (hd : es.Nodup) (he : ∀ e ∈ es, InRange n e) {s : BG K} {w : WPC K.T}
    (hr : Reach wv K S n (inserts es) s w) (hi : s.needs = false) : Shows S n (fun e => e ∈ es) s w := by
  have ho : OpsInRange n (inserts es) := by
    intro o hoo
    obtain ⟨e, h1, rfl⟩ := List.mem_map.1 hoo
    exact he e h1
  obtain ⟨c, hc⟩ := hr.trackI hK h2 rfl he
  have := C65_idle_partial hK S wv (by omega) hn ho hr (noReAdd hd) hi ((hc.inv.tot hc.tot).c0m hc.cm)
  rwa [show specMem (inserts es) = (fun e => e ∈ es) from funext fun e => propext (specMem_inserts es e)] at this

/-- After any insertions, on every schedule, merge pending or not: apart from the data race, the loop ends and visits only
inserted edges. -/
theorem C65_sound_partial (hK : K.Lawful) (S : Sizing) (wv : Bool) {n : Nat} (h2 : 2 ≤ n) (hn : n ≤ 9999999)
    {es : List Edge} (he : ∀ e ∈ es, InRange n e) {s : BG K} {w : WPC K.T} (hr : Reach wv K S n (inserts es) s w) :
    Answers S edgeLoop s w (fun l => ∀ e ∈ l, e ∈ es) := by
  have ho : OpsInRange n (inserts es) := by
    intro o hoo
    obtain ⟨e, h1, rfl⟩ := List.mem_map.1 hoo
    exact he e h1
  have key : ∀ {s : BG K} {w : WPC K.T}, Reach wv K S n (inserts es) s w →
      s.g.iface.edges = .ok s.g.edgesOf ∧ ∀ e ∈ s.g.edgesOf, e ∈ es := by
    intro s w hr
    obtain ⟨c, hc⟩ := hr.trackI hK h2 rfl he
    have hne := hr.ne hK S ho
    have hnv : s.g.nv = n := hne.nv
    refine ⟨edges_eq (hc.inv.winv hK) hne.lev ((hc.inv.tot hc.tot).c0m hc.cm) (by omega) (by omega), fun e hm => ?_⟩
    rw [← hc.mem e, hc.inv.mem e]
    rcases List.mem_append.1 hm with hm | hm
    · exact List.mem_append_left _ hm
    · exact List.mem_append_right _ (List.mem_append_right _ hm)
  constructor
  · refine ⟨s.g.edgesOf, s, w, evalAt_exec (edgeLoop_readsOnly s) (evalAt_of_runAt (edgeLoop_readsOnly s) ?_)⟩
    rw [runAt_edgeLoop]; exact (key hr).1
  · intro l s' w' hx
    rcases (edgeLoop_exec hr hx).2 with h | ⟨l', s1, w1, h, h3, h4⟩
    · cases h
    · cases h
      rw [(key h3).1] at h4
      cases h4
      exact (key h3).2

/-- On every history and schedule no level ever holds a tree without edges (the loops rely on it). -/
theorem C65_levels (hK : K.Lawful) (S : Sizing) (wv : Bool) {n : Nat} {ops : List Op} {s : BG K} {w : WPC K.T}
    (ho : OpsInRange n ops) (hr : Reach wv K S n ops s w) : ∀ t, some t ∈ s.g.ks → K.edges t ≠ [] :=
  (hr.ne hK S ho).lev

theorem edges_agree {g h : DK K} (h1 : g.nv = h.nv) (h2 : g.c0 = h.c0) (h3 : g.ks = h.ks) : g.iface.edges = h.iface.edges := by
  obtain ⟨_, _, _, _, _⟩ := g
  obtain ⟨_, _, _, _, _⟩ := h
  simp only at h1 h2 h3
  subst h1 h2 h3
  rfl

theorem nb_agree {g h : DK K} (h1 : g.maxR = h.maxR) (h2 : g.c0 = h.c0) (h3 : g.ks = h.ks) (x : Nat) :
    g.nbBegin x = h.nbBegin x ∧ ∀ it, g.nbNext x it = h.nbNext x it := by
  obtain ⟨_, _, _, _, _⟩ := g
  obtain ⟨_, _, _, _, _⟩ := h
  simp only at h1 h2 h3
  subst h1 h2 h3
  exact ⟨rfl, fun _ => rfl⟩

theorem neighRest_foot (x : Nat) : ∀ (f : Nat) (it : NbIt), Footed (neighRest x f it : BProg K (List Int)) := by
  intro f
  induction f with
  | zero => intro it; exact Footed.read fun _ _ _ _ => rfl
  | succ f ih =>
    intro it
    unfold neighRest
    split
    · exact trivial
    · refine Footed.bind (Footed.read fun s t _ h => ?_) fun it' => Footed.bind (ih it') fun _ => trivial
      exact (nb_agree (h .maxR (by simp)) (h .c0 (by simp)) (h .levels (by simp)) x).2 it

/-- The accesses declared for the loops, from which `RaceFree` is computed, cover all the loops depend on. -/
theorem C65_accesses : Footed (edgeLoop : BProg K (List Edge)) ∧
    ∀ x f, Footed (neighLoop x f : BProg K (List Int)) := by
  refine ⟨Footed.read fun s t hf h => edges_agree hf.2.2 (h .c0 (by simp)) (h .levels (by simp)), fun x f => ?_⟩
  refine Footed.bind (Footed.read fun s t _ h => ?_) fun it => neighRest_foot x f it
  exact (nb_agree (h .maxR (by simp)) (h .c0 (by simp)) (h .levels (by simp)) x).1

/-- Instance of `C65_insert_partial`: after the merge the loop visits both edges. -/
example (wv : Bool) : ∃ (s : BG refK2) (w : WPC refK2.T), Reach wv refK2 realSizing 5 (inserts [(0, 1), (1, 2)]) s w ∧
    s.needs = false ∧ s.g.maxR = 2 ∧ Shows realSizing 5 (fun e => e ∈ [(0, 1), (1, 2)]) s w := by
  have hx : playTest wv hybSizing 5 evDone (fun s _ => !s.needs && decide (s.g.maxR = 2)) = true := by
    cases wv <;> decide +kernel
  obtain ⟨s, w, h1, h2⟩ := playTest_sound (by decide) hx
  rw [Bool.and_eq_true] at h2
  exact ⟨s, w, h1, by simpa using h2.1, by simpa using h2.2,
    C65_insert_partial refK2_lawful realSizing wv (by decide) (by decide) (by decide) (by decide) h1 (by simpa using h2.1)⟩

/-- Instance of `C65_calm_partial`: a re-insertion, then a deletion in the levels. -/
example : ∃ (s : BG refK2) (w : WPC refK2.T),
    Calm false refK2 realSizing 5 [.add (0, 1), .add (1, 2), .add (0, 1), .del (0, 1)] s w ∧ s.needs = false ∧
      s.g.c0.marked = 0 ∧ s.numberEdges = 1 := by
  have hx : (match play false refK2 hybSizing (evDone ++ [alone (.add (0, 1)) 3, alone (.del (0, 1)) 8])
      (init refK2 false hybSizing 5) .top with
    | some (s, _) => !s.needs && decide (s.g.c0.marked = 0) && decide (s.numberEdges = 1)
    | none => false) = true := by decide +kernel
  rw [realSizing_eq_hyb]
  split at hx
  · rename_i s w h1
    simp only [Bool.and_eq_true, decide_eq_true_eq] at hx
    exact ⟨s, w, play_calm (ops := []) _ (.start (by decide)) (by decide +kernel) h1, by simpa using hx.1.1, hx.1.2, hx.2⟩
  · cases hx

end BG
end DK2
