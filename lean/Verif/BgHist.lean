import Verif.BgDel
import Verif.RealSizing
/-!
# Proofs about `DKtree_background`: histories
-/

namespace DK2

/-- Some call of the history inserted `e` although it was present. -/
def ReAdded (ops : List Op) (e : Edge) : Prop :=
  ∃ pre post, ops = pre ++ Op.add e :: post ∧ specMem pre e

/-- Some call of the history deleted `e` after `e` had been inserted although present. -/
def Ghost (ops : List Op) (e : Edge) : Prop :=
  ∃ pre post, ops = pre ++ Op.del e :: post ∧ ReAdded pre e

theorem split_concat {P : List Op → Prop} {ops : List Op} {o x : Op} :
    (∃ pre post, ops ++ [o] = pre ++ x :: post ∧ P pre) ↔
      (∃ pre post, ops = pre ++ x :: post ∧ P pre) ∨ (o = x ∧ P ops) := by
  constructor
  · rintro ⟨pre, post, h, hp⟩
    rcases List.eq_nil_or_concat post with rfl | ⟨post', o', rfl⟩
    · obtain ⟨h1, h2⟩ := List.append_inj' h rfl
      cases h2
      exact Or.inr ⟨rfl, h1 ▸ hp⟩
    · have h' : ops ++ [o] = (pre ++ x :: post') ++ [o'] := by simpa using h
      obtain ⟨h1, _⟩ := List.append_inj' h' rfl
      exact Or.inl ⟨pre, post', h1, hp⟩
  · rintro (⟨pre, post, h, hp⟩ | ⟨rfl, hp⟩)
    · exact ⟨pre, post ++ [o], by simp [h], hp⟩
    · exact ⟨ops, [], rfl, hp⟩

theorem specMem_concat (ops : List Op) (o : Op) (e : Edge) :
    specMem (ops ++ [o]) e ↔ specStep (specMem ops) o e := by
  have h : specMem ops = specRun (fun _ => False) ops := funext fun e => propext (specMem_iff_specRun ops e)
  rw [specMem_iff_specRun, specRun_concat, h]

theorem specMem_nil (e : Edge) : ¬ specMem [] e := by simp [specMem]

namespace BG
open DK
variable {K : K2Impl}

theorem init_JJ (wv : Bool) (S : Sizing) (n : Nat) (tot : Prop) (h2 : tot → 2 ≤ n) :
    JJ S ⟨n, fun _ => False, fun _ => False, tot, fun _ => False, 0, True⟩ (init K wv S n) .top := by
  have hw := C0.new_wf S n
  obtain ⟨r1, r2, r3, r4, r5, r6, r7⟩ := hw.resize_spec ((C0.new S n).maxEdges * 2)
  have hst : ∀ l : List Edge, l = [] → stored l (init K wv S n) WPC.top = [] := by
    rintro _ rfl; simp [stored, pend, init, DK.init]
  have hlv : (init K wv S n).g.c0.live = [] := by
    cases wv <;> simp [init, r2]
  unfold JJ
  rw [hlv]
  refine ⟨?_, ?_, rfl, rfl, by simp [init, DK.init], ?_, ?_, by simp [init, DK.init, RS], by rw [hlv]; simp, ?_,
    fun _ => rfl, ?_, ?_, ?_, ?_, fun h => by simp [init] at h, fun _ h => absurd h id, ?_⟩
  · cases wv
    · exact r1
    · exact hw
  · cases wv
    · exact r6
    · rfl
  · intro t ht; simp [init, DK.init, List.mem_replicate] at ht
  · intro i t ht; simp [init, DK.init, List.getElem?_replicate] at ht
  · exact ⟨fun h => by simp [init] at h, fun _ => rfl⟩
  · intro e; rw [hst _ rfl]; simp
  · intro e _; rw [hst _ rfl]; simp
  · intro _; rw [hst _ rfl]; simp [init, DK.init]
  · intro _; rw [hst _ rfl]; simp
  · intro ht
    refine ⟨h2 ht, by simp, fun _ => ?_, ?_, trivial, fun h => by simp [init] at h⟩
    · cases wv
      · exact r4
      · rfl
    · show marks K (List.replicate RS none) ≤ 0
      simp [marks, RS]

/-- What every history and schedule guarantees. -/
structure Track (S : Sizing) (n : Nat) (ops : List Op) (c : JC) (s : BG K) (w : WPC K.T) : Prop where
  n : c.n = n
  tot : ¬ c.tot
  D : ∀ e, c.D e → ReAdded ops e
  inv : JJ S c s w
  keep : ∀ e, specMem ops e → c.G e
  only : ∀ e, c.G e → specMem ops e ∨ Ghost ops e
  last : ∀ pre e, ops = pre ++ [Op.add e] → c.V e

theorem Track.add {S : Sizing} {n : Nat} {ops : List Op} {c : JC} {s s' : BG K} {w w' : WPC K.T} {e : Edge}
    (h : Track S n ops c s w) (hp : AddPost S c e s' w') : ∃ c', Track S n (ops ++ [.add e]) c' s' w' := by
  obtain ⟨V, hJ, hV, _⟩ := hp
  refine ⟨c.add e V, h.n, h.tot, ?_, hJ, ?_, ?_, ?_⟩
  · rintro e' (h1 | ⟨rfl, h1⟩)
    · exact split_concat.2 (Or.inl (h.D e' h1))
    · by_cases hm : specMem ops e'
      · exact split_concat.2 (Or.inr ⟨rfl, hm⟩)
      · rcases h.only e' h1 with h2 | ⟨pre, post, h2, h3⟩
        · exact absurd h2 hm
        · obtain ⟨p1, p2, h4, h5⟩ := h3
          exact ⟨p1, p2 ++ Op.del e' :: post ++ [.add e'], by rw [h2, h4]; simp, h5⟩
  · intro e' he'
    rw [specMem_concat] at he'
    exact he'.imp id (h.keep e')
  · rintro e' (rfl | h1)
    · exact Or.inl ((specMem_concat _ _ _).2 (Or.inl rfl))
    · rcases h.only e' h1 with h2 | h2
      · exact Or.inl ((specMem_concat _ _ _).2 (Or.inr h2))
      · exact Or.inr (split_concat.2 (Or.inl h2))
  · intro pre e' he'
    obtain ⟨_, h1⟩ := List.append_inj' he' rfl
    cases h1
    exact hV

theorem Track.del {S : Sizing} {n : Nat} {ops : List Op} {c : JC} {s s' : BG K} {w w' : WPC K.T} {e : Edge}
    (h : Track S n ops c s w) (hp : DelPost S c e s' w') : ∃ c', Track S n (ops ++ [.del e]) c' s' w' := by
  obtain ⟨i, hJ, h1, h2⟩ := hp
  refine ⟨{ c with G := i.1, V := i.2 }, h.n, h.tot, ?_, hJ, ?_, ?_, ?_⟩
  · intro e' he'; exact split_concat.2 (Or.inl (h.D e' he'))
  · intro e' he'
    rw [specMem_concat] at he'
    exact (h1 e' he'.1).2 (h.keep e' he'.2)
  · intro e' he'
    by_cases hee : e' = e
    · subst hee
      exact Or.inr (split_concat.2 (Or.inr ⟨rfl, h.D e' (h2 he').2⟩))
    · rcases h.only e' ((h1 e' hee).1 he') with h3 | h3
      · exact Or.inl ((specMem_concat _ _ _).2 ⟨hee, h3⟩)
      · exact Or.inr (split_concat.2 (Or.inl h3))
  · intro pre e' he'
    obtain ⟨_, h1⟩ := List.append_inj' he' rfl
    cases h1

theorem Reach.track (hK : K.Lawful) {wv : Bool} {S : Sizing} {n : Nat} {ops : List Op} {s : BG K} {w : WPC K.T}
    (h : Reach wv K S n ops s w) (hr : OpsInRange n ops) : ∃ c, Track S n ops c s w := by
  induction h with
  | start h1 =>
    refine ⟨_, rfl, ?_, ?_, init_JJ wv S n False (fun h => absurd h id), ?_, ?_, ?_⟩
    · exact id
    · intro e h; exact absurd h id
    · intro e h; exact absurd h (specMem_nil e)
    · intro e h; exact absurd h id
    · intro pre e h; simp at h
  | work _ hs ih =>
    obtain ⟨c, hc⟩ := ih hr
    exact ⟨c, hc.n, hc.tot, hc.D, JJ_stable hK S _ _ _ _ _ hc.inv hs, hc.keep, hc.only, hc.last⟩
  | @call ops o s s' w w' hprev he ih =>
    obtain ⟨c, hc⟩ := ih (fun o' ho' => hr o' (by simp [ho']))
    have hro := hr o (by simp)
    rw [← hc.n] at hro
    cases o with
    | add e => exact hc.add ((addEdge_ok hK S wv c hro).post _ hc.inv he)
    | del e => exact hc.del ((delEdge_ok hK S wv c hc.tot hro).post _ hc.inv he)

/-- What every insertion-only history guarantees. -/
structure TrackI (S : Sizing) (n : Nat) (es : List Edge) (c : JC) (s : BG K) (w : WPC K.T) : Prop where
  n : c.n = n
  tot : c.tot
  cm : c.cm
  inv : JJ S c s w
  mem : ∀ e, c.G e ↔ e ∈ es

theorem Reach.trackI (hK : K.Lawful) {wv : Bool} {S : Sizing} {n : Nat} (h2 : 2 ≤ n) {ops : List Op}
    {s : BG K} {w : WPC K.T} (h : Reach wv K S n ops s w) {es : List Edge} (ho : ops = inserts es)
    (hr : ∀ e ∈ es, InRange n e) : ∃ c, TrackI S n es c s w := by
  induction h generalizing es with
  | start h1 =>
    have : es = [] := by
      cases es with
      | nil => rfl
      | cons a es => simp [inserts] at ho
    subst this
    exact ⟨_, rfl, trivial, trivial, init_JJ wv S n True (fun _ => h2), by simp⟩
  | work _ hs ih =>
    obtain ⟨c, hc⟩ := ih ho hr
    exact ⟨c, hc.n, hc.tot, hc.cm, JJ_stable hK S _ _ _ _ _ hc.inv hs, hc.mem⟩
  | @call ops o s s' w w' hprev he ih =>
    rcases List.eq_nil_or_concat es with rfl | ⟨es', e, rfl⟩
    · simp [inserts] at ho
    · have ho' : ops ++ [o] = inserts es' ++ [Op.add e] := by simpa [inserts] using ho
      obtain ⟨h1, h3⟩ := List.append_inj' ho' rfl
      cases h3
      obtain ⟨c, hc⟩ := ih h1 (fun e' he' => hr e' (by simp [he']))
      have hro : InRange c.n e := by rw [hc.n]; exact hr e (by simp)
      obtain ⟨V, hJ, _, _⟩ := (addEdge_ok hK S wv c hro).post _ hc.inv he
      refine ⟨c.add e V, hc.n, hc.tot, hc.cm, hJ, ?_⟩
      intro e'
      simp only [JC.add, hc.mem e']
      simp
      tauto

/-! ## Exactness when idle -/

theorem treesNeigh_mem (hK : K.Lawful) {n x : Nat} (hx : x < n) :
    ∀ {ks : List (Option K.T)}, AllValid K n ks → ∀ y, (y ∈ treesNeigh K x ks ↔ (x, y) ∈ flat K ks) := by
  intro ks
  induction ks with
  | nil => intro _; simp [treesNeigh]
  | cons o ks ih =>
    intro hv y
    have hi := ih hv.tail y
    cases o with
    | none => simpa [treesNeigh] using hi
    | some t =>
      have h1 := (treesNeigh_spec hK hx (ks := [some t]) (fun u hu => by
        simp at hu; subst hu; exact hv.head) (by simpa using hK.edges_nodup n t hv.head)).1 y
      simp only [treesNeigh, flat_some] at h1 ⊢
      simp only [List.append_nil, flat_nil] at h1
      rw [List.mem_append, List.mem_append, hi, h1]

theorem JJ.V_idle {S : Sizing} {c : JC} {s : BG K} {w : WPC K.T} (h : JJ S c s w) (hn : s.needs = false) :
    JJ S { c with V := c.G } s w :=
  J.congr h rfl (fun _ => Iff.rfl) (fun _ h => h)
    (fun _ he => ((J.idle_seen h hn).1 he).imp id (fun h => Or.inr ⟨hn, h⟩)) id

section
variable (hK : K.Lawful) (S : Sizing)
include hK

/-- Once visible, visible until the next modification. -/
theorem seen_again {c : JC} {e : Edge} (he : InRange c.n e) {s s' : BG K} {w w' : WPC K.T} {b : Bool}
    (h : JJ S c s w) (hv : e ∈ s.g.c0.live ∨ Seen s e)
    (hx : Exec (worker K S) (contains e) s w (.ret b) s' w') : b = true := by
  have h' : JJ S { c with V := fun e' => e' = e } s w :=
    J.congr h rfl (fun _ => Iff.rfl) (fun _ h => h) (fun e' he' => he' ▸ hv) id
  obtain ⟨_, _, h2⟩ := (contains_ok hK S { c with V := fun e' => e' = e } he False False.elim).post _ h' hx
  cases b with
  | true => rfl
  | false => exact absurd rfl (h2 rfl).2

theorem contains_idle {c : JC} {e : Edge} (he : InRange c.n e) {s s' : BG K} {w w' : WPC K.T} {b : Bool}
    (h : JJ S c s w) (hn : s.needs = false)
    (hx : Exec (worker K S) (contains e) s w (.ret b) s' w') : b = true ↔ c.G e := by
  have h' := JJ.V_idle h hn
  obtain ⟨h1, h2, h3⟩ := (contains_ok hK S { c with V := c.G } he False False.elim).post _ h' hx
  cases b with
  | true => exact ⟨fun _ => J.seen_mem h1 (h2 rfl), fun _ => rfl⟩
  | false => exact ⟨fun hh => (by cases hh), fun hh => absurd hh (h3 rfl).2⟩

theorem JJI_stable (c : JC) (P : BG K → Prop) :
    Stable (worker K S) (fun s w => JJ S c s w ∧ s.needs = false ∧ P s) := by
  rintro s w s' w' ⟨h, hn, hp⟩ hw
  have hs := J.idle_step h hn hw
  subst hs
  exact ⟨JJ_stable hK S c _ _ _ _ h hw, hn, hp⟩

theorem listNeighbour_ok (c : JC) {x : Nat} (hx : x < c.n) (tot : Prop) {tg : Prop} (htc : tg → c.tot) :
    Ok (worker K S) (good S tg) tot (listNeighbour x) (fun s w => JJ S c s w ∧ s.needs = false) (fun l s w =>
      (JJ S c s w ∧ s.needs = false) ∧ (∀ y, y ∈ l ↔ c.G (x, y)) ∧ ((∀ e, ¬ c.D e) → l.Nodup)) := by
  have hst : ∀ P : BG K → Prop, Stable (worker K S) (fun s w => (JJ S c s w ∧ s.needs = false) ∧ P s) := by
    intro P s w s' w' h hw
    have := JJI_stable hK S c P s w s' w' ⟨h.1.1, h.1.2, h.2⟩ hw
    exact ⟨⟨this.1, this.2.1⟩, this.2.2⟩
  have hst0 : Stable (worker K S) (fun s w => JJ S c s w ∧ s.needs = false) := by
    intro s w s' w' h hw
    have := JJI_stable hK S c (fun _ => True) s w s' w' ⟨h.1, h.2, trivial⟩ hw
    exact ⟨this.1, this.2.1⟩
  refine Ok.bind (R := fun l s w => (JJ S c s w ∧ s.needs = false) ∧
    l = ((s.g.c0.live.filter (fun e => decide (e.1 = x))).map (·.2)).reverse) _ ?_ ?_
  · refine Ok.read _ hst0 (fun s w _ => no_conflict_private (by simp) w) ?_ ?_ ?_
    · intro _ s w h; exact ⟨_, h.1.c0wf.listNeighbours_eq x⟩
    · intro s w l h hl
      rw [h.1.c0wf.listNeighbours_eq x] at hl
      cases hl
      exact ⟨h, rfl⟩
    · intro l; exact hst _
  · intro l
    refine Ok.bind (R := fun nd s w => (JJ S c s w ∧ s.needs = false) ∧
      (nd = false ∧ l = ((s.g.c0.live.filter (fun e => decide (e.1 = x))).map (·.2)).reverse)) _ ?_ ?_
    · refine Ok.read _ (hst _) (fun _ _ _ => no_conflict_none) ?_ ?_ ?_
      · intro _ s w h; exact ⟨_, rfl⟩
      · intro s w nd h hl
        cases hl
        exact ⟨h.1, h.1.2, h.2⟩
      · intro nd; exact hst _
    · intro nd
      cases nd with
      | true => exact Ok.absurd _ (fun s w h => by have := h.2.1; cases this)
      | false =>
        rw [if_neg Bool.false_ne_true]
        refine Ok.bind (R := fun r s w => (JJ S c s w ∧ s.needs = false) ∧
          ((∀ y, y ∈ l ++ r ↔ c.G (x, y)) ∧ ((∀ e, ¬ c.D e) → (l ++ r).Nodup))) _ ?_ ?_
        · refine Ok.read _ (hst _) (fun s w h => no_conflict_idle (h.1.1.stage.idle h.1.2).1) ?_ ?_ ?_
          · intro _ s w h; exact ⟨_, rfl⟩
          · intro s w r ⟨⟨h, hn⟩, _, hl⟩ hr
            cases hr
            subst hl
            have htk : flat K (s.g.ks.take (s.g.maxR + 1)) = flat K s.g.ks := take_flat h.above
            have hval : AllValid K c.n (s.g.ks.take (s.g.maxR + 1)) := h.val.take
            have hm := treesNeigh_mem hK hx hval
            refine ⟨⟨h, hn⟩, ?_, ?_⟩
            · intro y
              rw [J.idle_seen h hn, List.mem_append, hm y, htk]
              simp
            · intro hD
              have hnd : (stored s.g.c0.live s w).Nodup := nodup_of_count (fun e => h.one e (hD e))
              rw [stored, (h.stage.idle hn).2.1, List.nil_append] at hnd
              have hnd' := hnd
              rw [List.nodup_append] at hnd
              obtain ⟨n1, n2, n3⟩ := hnd
              have hnd2 := (treesNeigh_spec hK hx hval (by rw [htk]; exact n2)).2
              rw [List.nodup_append]
              refine ⟨?_, hnd2, ?_⟩
              · rw [List.nodup_reverse]
                refine List.Nodup.map_on ?_ (n1.filter _)
                rintro ⟨a, b⟩ ha ⟨a', b'⟩ ha' hab
                simp at ha ha' hab
                rw [ha.2, ha'.2, hab]
              · intro y hy z hz hyz
                subst hyz
                rw [hm y, htk] at hz
                simp at hy
                exact n3 _ hy _ hz rfl
          · intro r; exact hst _
        · intro r
          refine Ok.ret _ (hst _) ?_
          intro s w h; exact h

end

/-! ## Calling only when idle -/

/-- As `Reach`, but every call is made when no merge is pending. -/
inductive Calm (wv : Bool) (K : K2Impl) (S : Sizing) (n : Nat) : List Op → BG K → WPC K.T → Prop where
  | start : n ≠ 1 → Calm wv K S n [] (init K wv S n) .top
  | work {ops : List Op} {s s' : BG K} {w w' : WPC K.T} : Calm wv K S n ops s w →
      wstep S s w = .ok (s', w') → Calm wv K S n ops s' w'
  | call {ops : List Op} {o : Op} {s s' : BG K} {w w' : WPC K.T} : Calm wv K S n ops s w →
      s.needs = false → Exec (worker K S) (call wv S o) s w (.ret ()) s' w' → Calm wv K S n (ops ++ [o]) s' w'

theorem Calm.reach {wv : Bool} {S : Sizing} {n : Nat} {ops : List Op} {s : BG K} {w : WPC K.T}
    (h : Calm wv K S n ops s w) : Reach wv K S n ops s w := by
  induction h with
  | start h1 => exact .start h1
  | work _ hs ih => exact .work ih hs
  | call _ _ he ih => exact .call ih he

section
variable (hK : K.Lawful) (S : Sizing)
include hK

/-- Inserting a visible edge changes nothing. -/
theorem addEdge_seen_ok (wv : Bool) (c : JC) {e : Edge} (he : InRange c.n e) (hV : c.V e) :
    Ok (worker K S) (good S False) False (addEdge wv S e) (JJ S c) (fun _ s w => JJ S c s w) := by
  refine Ok.bind _ (contains_ok hK S c he False False.elim) ?_
  intro b
  cases b with
  | true =>
    rw [if_pos rfl]
    refine Ok.ret _ ?_ (fun _ _ h => h.1)
    intro s w s' w' ⟨h, h1, h2⟩ hw
    exact ⟨JJ_stable hK S _ _ _ _ _ h hw, fun hb => (seen_stable hK S s w s' w' ⟨h, h1 hb⟩ hw).2,
      fun hb => by cases hb⟩
  | false => exact Ok.absurd _ (fun s w h => (h.2.2 rfl).2 hV)

theorem Calm.track {wv : Bool} {n : Nat} {ops : List Op} {s : BG K} {w : WPC K.T}
    (h : Calm wv K S n ops s w) (hr : OpsInRange n ops) :
    ∃ c : JC, c.n = n ∧ ¬ c.tot ∧ (∀ e, ¬ c.D e) ∧ JJ S c s w ∧ ∀ e, c.G e ↔ specMem ops e := by
  induction h with
  | start h1 =>
    exact ⟨_, rfl, id, fun _ h => h, init_JJ wv S n False (fun h => absurd h id),
      fun e => ⟨fun h => absurd h id, fun h => absurd h (specMem_nil e)⟩⟩
  | work _ hs ih =>
    obtain ⟨c, h1, h2, h3, h4, h5⟩ := ih hr
    exact ⟨c, h1, h2, h3, JJ_stable hK S _ _ _ _ _ h4 hs, h5⟩
  | @call ops o s s' w w' hprev hn he ih =>
    obtain ⟨c, h1, h2, h3, h4, h5⟩ := ih (fun o' ho' => hr o' (by simp [ho']))
    have hro := hr o (by simp)
    rw [← h1] at hro
    cases o with
    | add e =>
      by_cases hm : c.G e
      · have h6 := (addEdge_seen_ok hK S wv { c with V := c.G } hro hm).post _ (JJ.V_idle h4 hn) he
        refine ⟨{ c with V := c.G }, h1, h2, h3, h6, fun e' => ?_⟩
        rw [specMem_concat]
        simp only [specStep, ← h5 e']
        exact ⟨Or.inr, fun h => h.elim (fun hh => hh ▸ hm) id⟩
      · obtain ⟨V, h6, _, _⟩ := (addEdge_ok hK S wv c hro).post _ h4 he
        refine ⟨c.add e V, h1, h2, ?_, h6, fun e' => ?_⟩
        · rintro e' (h7 | ⟨rfl, h7⟩)
          · exact h3 e' h7
          · exact hm h7
        · rw [specMem_concat]
          simp only [specStep, JC.add, ← h5 e']
    | del e =>
      obtain ⟨i, h6, h7, h8⟩ := (delEdge_ok hK S wv c h2 hro).post _ h4 he
      refine ⟨{ c with G := i.1, V := i.2 }, h1, h2, h3, h6, fun e' => ?_⟩
      rw [specMem_concat]
      simp only [specStep, ← h5 e']
      constructor
      · intro h9
        have hne : e' ≠ e := by
          rintro rfl; exact h3 e' (h8 h9).2
        exact ⟨hne, (h7 e' hne).1 h9⟩
      · rintro ⟨h9, h10⟩; exact (h7 e' h9).2 h10

end

end BG
end DK2
