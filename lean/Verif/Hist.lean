import Verif.DKProofs
import Verif.RealSizing
/-!
# Histories: refinement of `DKtree` to the set specification
-/

namespace DK2

theorem length_eq_of_mem_iff {l l' : List Edge} (h : l.Nodup) (h' : l'.Nodup)
    (hm : ∀ e, e ∈ l ↔ e ∈ l') : l.length = l'.length :=
  ((List.perm_ext_iff_of_nodup h h').2 hm).length_eq

theorem length_insert {l l' : List Edge} {e : Edge} (h : l.Nodup) (h' : l'.Nodup)
    (hm : ∀ e', e' ∈ l' ↔ e' = e ∨ e' ∈ l) (he : e ∉ l) : l'.length = l.length + 1 := by
  have := length_eq_of_mem_iff h' (List.nodup_cons.2 ⟨he, h⟩) (fun e' => by
    rw [hm, List.mem_cons])
  simpa using this

theorem length_remove {l l' : List Edge} {e : Edge} (h : l.Nodup) (h' : l'.Nodup)
    (hm : ∀ e', e' ∈ l' ↔ e' ∈ l ∧ e' ≠ e) (he : e ∈ l) : l'.length + 1 = l.length := by
  have := length_insert (e := e) h' h (fun e' => by
    rw [hm]
    constructor
    · intro h1
      by_cases h2 : e' = e
      · exact Or.inl h2
      · exact Or.inr ⟨h1, h2⟩
    · rintro (h1 | h1)
      · exact h1 ▸ he
      · exact h1.1) (fun hh => ((hm e).1 hh).2 rfl)
  omega

theorem length_remove_le {l l' : List Edge} {p : Edge → Prop} (h' : l'.Nodup)
    (hm : ∀ e', e' ∈ l' ↔ e' ∈ l ∧ p e') : l'.length ≤ l.length :=
  (List.subperm_of_subset h' (fun e he => ((hm e).1 he).1)).length_le

namespace DK
variable {K : K2Impl}

theorem runFrom_append (S : Sizing) (g : DK K) (a b : List Op) :
    runFrom S g (a ++ b) = (runFrom S g a >>= fun g' => runFrom S g' b) := by
  induction a generalizing g with
  | nil => rfl
  | cons o a ih =>
    simp only [List.cons_append, runFrom]
    cases g.step S o with
    | ok g' => simp [ih]
    | _ => rfl

theorem run_append (S : Sizing) (n : Nat) (a b : List Op) :
    run K S n (a ++ b) = (run K S n a >>= fun g' => runFrom S g' b) := by
  unfold run
  cases create K S n with
  | ok g => simp [runFrom_append]
  | _ => rfl

theorem run_snoc_ok (S : Sizing) {n : Nat} {a : List Op} {o : Op} {g : DK K}
    (h : run K S n (a ++ [o]) = .ok g) : ∃ g0, run K S n a = .ok g0 ∧ g0.step S o = .ok g := by
  rw [run_append, Res.bind_eq_ok] at h
  obtain ⟨g0, h1, h2⟩ := h
  refine ⟨g0, h1, ?_⟩
  simp only [runFrom] at h2
  rw [Res.bind_eq_ok] at h2
  obtain ⟨g1, h3, h4⟩ := h2
  simp at h4; rw [h3, h4]

theorem run_nil {S : Sizing} {n : Nat} {g : DK K} (h : run K S n [] = .ok g) :
    g = init K S n ∧ n ≠ 1 := by
  unfold run create at h
  split at h
  · cases h
  · simp [runFrom] at h; exact ⟨h.symm, by assumption⟩

theorem OpsInRange.of_append {n : Nat} {a b : List Op} (h : OpsInRange n (a ++ b)) : OpsInRange n a :=
  fun o ho => h o (List.mem_append_left _ ho)

theorem OpsInRange.last {n : Nat} {a : List Op} {o : Op} (h : OpsInRange n (a ++ [o])) :
    InRange n o.edge := h o (by simp)

/-- Relation between a graph and the specified edge set, valid on every history that returns. -/
structure Track (g : DK K) (G : Edge → Prop) : Prop where
  inv : g.Inv
  mem : ∀ e, e ≠ (1, 1) → (e ∈ g.edgesOf ↔ G e)
  mem11 : (1, 1) ∈ g.edgesOf → G (1, 1)
  cnt : g.edgesOf.length ≤ g.nTotal

theorem Track.step (hK : K.Lawful) (hF : K.ForcedPure) (S : Sizing) {g g' : DK K} {G : Edge → Prop}
    (h : Track g G) {o : Op} (ho : InRange g.nv o.edge) (h2 : 2 ≤ g.nv)
    (hr : g.step S o = .ok g') : Track g' (specStep G o) ∧ g'.nv = g.nv := by
  cases o with
  | add e =>
    obtain ⟨a1, a2, a3, a4, a5⟩ := h.inv.addEdge hK hF S ho hr
    refine ⟨⟨a1, ?_, ?_, ?_⟩, a2⟩
    · intro e' he'
      rw [a3, h.mem e' he']; rfl
    · intro hm
      rcases (a3 _).1 hm with h1 | h1
      · exact Or.inl h1
      · exact Or.inr (h.mem11 h1)
    · by_cases hm : e ∈ g.edgesOf
      · rw [a4 hm]; exact h.cnt
      · rw [a5 hm, length_insert h.inv.nodup a1.nodup a3 hm]
        have := h.cnt; omega
  | del e =>
    have ho' : InRange g.nv e := ho
    by_cases hq : g.rebuilds S e = true
    · obtain ⟨b1, b2, b3, b4, b5⟩ := h.inv.delEdge_rebuild hK hF S ho' h2 hq hr
      refine ⟨⟨b1, ?_, ?_, ?_⟩, b2⟩
      · intro e' he'
        rw [b3]
        show _ ↔ e' ≠ e ∧ G e'
        rw [h.mem e' he']
        exact ⟨fun hh => ⟨hh.2.1, hh.1⟩, fun hh => ⟨hh.2, hh.1, he'⟩⟩
      · intro hm; exact absurd rfl ((b3 _).1 hm).2.2
      · rw [b4]
        have hc := h.cnt
        by_cases hm : e ∈ g.edgesOf
        · have h3 : 0 < g.edgesOf.length := List.length_pos_of_mem hm
          have h4 : g'.edgesOf.length + 1 ≤ g.edgesOf.length := by
            have h5 : (e :: g'.edgesOf).Nodup := List.nodup_cons.2
              ⟨fun hh => ((b3 _).1 hh).2.1 rfl, b1.nodup⟩
            have := (List.subperm_of_subset h5 (l₂ := g.edgesOf) (by
              intro a ha
              rcases List.mem_cons.1 ha with h6 | h6
              · exact h6 ▸ hm
              · exact ((b3 _).1 h6).1)).length_le
            simpa using this
          have : decr g.nTotal = g.nTotal - 1 := by unfold decr; rw [if_neg (by omega)]
          rw [if_pos hm, this]; omega
        · rw [if_neg hm]
          have := length_remove_le b1.nodup b3
          omega
    · obtain ⟨g1, b0, b1, b2, b3, b4, b5⟩ := h.inv.delEdge_quiet hK S ho' (by simpa using hq)
      have : g' = g1 := by
        have hr' : g.delEdge S e = .ok g' := hr
        rw [b0] at hr'; exact (Res.ok.inj hr').symm
      subst this
      refine ⟨⟨b1, ?_, ?_, ?_⟩, b2⟩
      · intro e' he'
        rw [b3]
        show _ ↔ e' ≠ e ∧ G e'
        rw [h.mem e' he']; exact and_comm
      · intro hm
        have := (b3 _).1 hm
        exact ⟨this.2, h.mem11 this.1⟩
      · rw [b4]
        have hc := h.cnt
        by_cases hm : e ∈ g.edgesOf
        · have h3 : 0 < g.edgesOf.length := List.length_pos_of_mem hm
          have h4 := length_remove h.inv.nodup b1.nodup b3 hm
          have : decr g.nTotal = g.nTotal - 1 := by unfold decr; rw [if_neg (by omega)]
          rw [if_pos hm, this]; omega
        · rw [if_neg hm]
          have := length_remove_le b1.nodup b3
          omega

theorem inRange_two {n : Nat} {e : Edge} (h : InRange n e) (h1 : n ≠ 1) : 2 ≤ n := by
  have := h.1; omega

/-- Every history that returns refines the specification (up to the pair `(1,1)`). -/
theorem run_track (hK : K.Lawful) (hF : K.ForcedPure) (S : Sizing) {n : Nat} :
    ∀ {ops : List Op} {g : DK K}, OpsInRange n ops → run K S n ops = .ok g →
      Track g (specRun (fun _ => False) ops) ∧ g.nv = n ∧ n ≠ 1 := by
  intro ops
  induction ops using List.reverseRecOn with
  | nil =>
    intro g _ hr
    obtain ⟨rfl, h1⟩ := run_nil hr
    refine ⟨⟨init_inv S n, ?_, ?_, ?_⟩, rfl, h1⟩
    · intro e _; simp [init_edges, specRun]
    · intro h; simp [init_edges] at h
    · simp [init_edges]
  | append_singleton ops o ih =>
    intro g hops hr
    obtain ⟨g0, h1, h2⟩ := run_snoc_ok S hr
    obtain ⟨t, hnv, hn1⟩ := ih (OpsInRange.of_append hops) h1
    have hin := OpsInRange.last hops
    obtain ⟨t', hnv'⟩ := t.step hK hF S (by rw [hnv]; exact hin)
      (by rw [hnv]; exact inRange_two hin hn1) h2
    rw [specRun_concat]
    exact ⟨t', by rw [hnv', hnv], hn1⟩

/-! ## Histories without a rebuild -/

/-- No deletion of the history enters the rebuild branch. -/
def Quiet (K : K2Impl) (S : Sizing) (n : Nat) (ops : List Op) : Prop :=
  ∀ pre e post, ops = pre ++ Op.del e :: post →
    ∀ g : DK K, run K S n pre = .ok g → g.rebuilds S e = false

theorem Quiet.of_append {S : Sizing} {n : Nat} {a b : List Op} (h : Quiet K S n (a ++ b)) :
    Quiet K S n a := by
  intro pre e post hh g hg
  exact h pre e (post ++ b) (by simp [hh]) g hg

/-- The exact relation. -/
structure Exact (g : DK K) (G : Edge → Prop) : Prop where
  inv : g.Inv
  mem : ∀ e, e ∈ g.edgesOf ↔ G e
  cnt : g.nTotal = g.edgesOf.length
  above : g.NoneAbove

theorem eraseScan_some {e : Edge} : ∀ {ks : List (Option K.T)} {i : Nat} {t : K.T},
    (eraseScan K e ks).2[i]? = some (some t) → ∃ t', ks[i]? = some (some t') := by
  intro ks
  induction ks with
  | nil => intro i t h; simp [eraseScan] at h
  | cons o ks ih =>
    intro i t h
    cases o with
    | none =>
      simp only [eraseScan] at h
      cases i with
      | zero => simp at h
      | succ i => simpa using ih (by simpa using h)
    | some u =>
      simp only [eraseScan] at h
      cases i with
      | zero => exact ⟨u, by simp⟩
      | succ i =>
        split at h
        · exact ⟨t, by simpa using h⟩
        · simpa using ih (by simpa using h)

theorem sweep_some : ∀ {ks : List (Option K.T)} {i : Nat} {t : K.T},
    (sweep K ks).2[i]? = some (some t) → ks[i]? = some (some t) := by
  intro ks
  induction ks with
  | nil => intro i t h; simp [sweep] at h
  | cons o ks ih =>
    intro i t h
    cases o with
    | none =>
      simp only [sweep] at h
      cases i with
      | zero => simp at h
      | succ i => simpa using ih (by simpa using h)
    | some u =>
      simp only [sweep] at h
      split at h
      · cases i with
        | zero => simp at h
        | succ i => simpa using ih (by simpa using h)
      · cases i with
        | zero => simpa using h
        | succ i => simpa using ih (by simpa using h)

theorem NoneAbove.delEdge_quiet (S : Sizing) {g g' : DK K} (h : g.NoneAbove) {e : Edge}
    (hq : g.rebuilds S e = false) (hr : g.delEdge S e = .ok g') : g'.NoneAbove := by
  unfold DK.delEdge at hr
  rw [Res.bind_eq_ok] at hr
  obtain ⟨⟨b, c⟩, h1, h2⟩ := hr
  unfold rebuilds at hq
  rw [h1] at hq
  cases b with
  | true =>
    simp only [if_true, Res.ok.injEq] at h2
    subst h2; exact h
  | false =>
    simp only [Bool.false_eq_true, if_false] at h2 hq
    rw [if_neg (by simp [hq])] at h2
    simp only [Res.ok.injEq] at h2
    subst h2
    intro i t hi
    simp only [DK.afterErase] at hi ⊢
    obtain ⟨t', ht'⟩ := eraseScan_some (sweep_some hi)
    exact h i t' ht'

theorem NoneAbove.addEdge (hK : K.Lawful) (hF : K.ForcedPure) (S : Sizing) {g g' : DK K} (hi : g.Inv)
    (h : g.NoneAbove) {e : Edge} (he : InRange g.nv e) (hr : g.addEdge S e = .ok g') :
    g'.NoneAbove := by
  unfold DK.addEdge at hr
  rw [containsForced_pure hF, hi.contains_eq hK he] at hr
  simp only [Res.ok_bind] at hr
  split at hr
  · simp at hr; subst hr; exact h
  · split at hr
    · rw [Res.bind_eq_ok] at hr
      obtain ⟨c, _, hr⟩ := hr
      simp at hr; subst hr; exact h
    · split at hr
      · cases hr
      · rename_i i hsel
        have hlt := (selectLevel_lt S _ _ _ _ _ hsel).2
        rw [Nat.zero_add] at hlt
        rw [Res.bind_eq_ok] at hr
        obtain ⟨conv, _, hr⟩ := hr
        rw [Res.bind_eq_ok] at hr
        obtain ⟨c, _, hr⟩ := hr
        rw [mergeUpTo_snd, set_replicate_drop hlt] at hr
        simp at hr
        subst hr
        intro j t hj
        simp only at hj ⊢
        by_cases hji : j < i
        · rw [List.getElem?_append_left (by simpa using hji)] at hj
          simp [List.getElem?_replicate] at hj
        · rw [List.getElem?_append_right (by simpa using (by omega : i ≤ j))] at hj
          simp only [List.length_replicate] at hj
          by_cases hji2 : j = i
          · omega
          · have : j - i = (j - i - 1) + 1 := by omega
            rw [this] at hj
            simp only [List.getElem?_cons_succ, List.getElem?_drop] at hj
            have := h _ _ hj
            omega

theorem Exact.step (hK : K.Lawful) (hF : K.ForcedPure) (S : Sizing) {g g' : DK K} {G : Edge → Prop}
    (h : Exact g G) {o : Op} (ho : InRange g.nv o.edge)
    (hq : ∀ e, o = .del e → g.rebuilds S e = false)
    (hr : g.step S o = .ok g') : Exact g' (specStep G o) ∧ g'.nv = g.nv := by
  cases o with
  | add e =>
    obtain ⟨a1, a2, a3, a4, a5⟩ := h.inv.addEdge hK hF S ho hr
    refine ⟨⟨a1, ?_, ?_, NoneAbove.addEdge hK hF S h.inv h.above ho hr⟩, a2⟩
    · intro e'; rw [a3, h.mem]; rfl
    · by_cases hm : e ∈ g.edgesOf
      · rw [a4 hm]; exact h.cnt
      · rw [a5 hm, length_insert h.inv.nodup a1.nodup a3 hm, h.cnt]
  | del e =>
    have hq' := hq e rfl
    have ho : InRange g.nv e := ho
    obtain ⟨g1, b0, b1, b2, b3, b4, b5⟩ := h.inv.delEdge_quiet hK S ho hq'
    have hr' : g.delEdge S e = .ok g' := hr
    have : g' = g1 := by rw [b0] at hr'; exact (Res.ok.inj hr').symm
    subst this
    refine ⟨⟨b1, ?_, ?_, NoneAbove.delEdge_quiet S h.above hq' hr'⟩, b2⟩
    · intro e'; rw [b3, h.mem]; exact and_comm
    · rw [b4, h.cnt]
      by_cases hm : e ∈ g.edgesOf
      · have h4 := length_remove h.inv.nodup b1.nodup b3 hm
        rw [if_pos hm]; unfold decr; rw [if_neg (by omega)]; omega
      · rw [if_neg hm]
        apply length_eq_of_mem_iff h.inv.nodup b1.nodup
        intro e'
        rw [b3]
        exact ⟨fun hh => ⟨hh, fun h2 => hm (h2 ▸ hh)⟩, fun hh => hh.1⟩

theorem run_exact (hK : K.Lawful) (hF : K.ForcedPure) (S : Sizing) {n : Nat} :
    ∀ {ops : List Op} {g : DK K}, OpsInRange n ops → Quiet K S n ops → run K S n ops = .ok g →
      Exact g (specRun (fun _ => False) ops) ∧ g.nv = n := by
  intro ops
  induction ops using List.reverseRecOn with
  | nil =>
    intro g _ _ hr
    obtain ⟨rfl, h1⟩ := run_nil hr
    refine ⟨⟨init_inv S n, ?_, ?_, init_noneAbove S n⟩, rfl⟩
    · intro e; simp [init_edges, specRun]
    · rw [init_edges]; rfl
  | append_singleton ops o ih =>
    intro g hops hq hr
    obtain ⟨g0, h1, h2⟩ := run_snoc_ok S hr
    obtain ⟨t, hnv⟩ := ih (OpsInRange.of_append hops) hq.of_append h1
    have hin := OpsInRange.last hops
    obtain ⟨t', hnv'⟩ := t.step hK hF S (by rw [hnv]; exact hin) (by
      rintro e rfl
      exact hq ops e [] rfl g0 h1) h2
    rw [specRun_concat]
    exact ⟨t', by rw [hnv', hnv]⟩

/-! ## Insert-only histories -/

/-- Invariant of insert-only graphs: nothing is marked. -/
structure Fresh (g : DK K) : Prop where
  c0m : g.c0.marked = 0
  trees : ∀ t, some t ∈ g.ks → K.marked t = 0

theorem selectLevel_some (S : Sizing) (m : Nat) : ∀ (ks : List (Option K.T)) (i acc tot : Nat),
    (∀ l, l + 1 = i + ks.length → tot + 1 < S.maxsz m (l + 1)) → ks ≠ [] →
    acc + (ks.map (fun o => o.elim 0 K.total)).sum ≤ tot →
    ∃ r, selectLevel K S m ks i acc = some r := by
  intro ks
  induction ks with
  | nil => intro i acc tot _ h; exact absurd rfl h
  | cons o ks ih =>
    intro i acc tot htop _ hle
    have key : ∀ acc', acc' + (ks.map (fun o => o.elim 0 K.total)).sum ≤ tot →
        ∃ r, (if S.maxsz m (i + 1) > acc' + 1 then some i else selectLevel K S m ks (i + 1) acc')
          = some r := by
      intro acc' hle'
      split
      · exact ⟨i, rfl⟩
      · rename_i hn
        by_cases hks : ks = []
        · subst hks
          exfalso
          have := htop i (by simp)
          simp at hle'
          omega
        · exact ih (i + 1) acc' tot (fun l hl => htop l (by simp at hl ⊢; omega)) hks hle'
    cases o with
    | none =>
      simp only [selectLevel]
      exact key acc (by simpa using hle)
    | some t =>
      simp only [selectLevel]
      refine key (acc + K.total t) ?_
      simp at hle; omega

theorem sum_total (hK : K.Lawful) {n : Nat} : ∀ {ks : List (Option K.T)}, AllValid K n ks →
    (∀ t, some t ∈ ks → K.marked t = 0) →
    (ks.map (fun o => o.elim 0 K.total)).sum = (flat K ks).length := by
  intro ks
  induction ks with
  | nil => intro _ _; simp
  | cons o ks ih =>
    intro hv hm
    have := ih hv.tail (fun t ht => hm t (by simp [ht]))
    cases o with
    | none => simpa using this
    | some t =>
      have h1 := hK.total_eq n t hv.head
      have h2 := hm t (by simp)
      simp [this]; omega

theorem mergeUpTo_marked (hK : K.Lawful) {v : Nat} (n : Nat) : ∀ (t : K.T) (ks : List (Option K.T)),
    K.valid v t → AllValid K v ks → K.marked t = 0 → K.marked (mergeUpTo K n t ks).1 = 0 := by
  induction n with
  | zero => intro t ks _ _ h; simpa [mergeUpTo] using h
  | succ n ih =>
    intro t ks h1 h2 h3
    cases ks with
    | nil => simpa [mergeUpTo] using h3
    | cons o ks =>
      cases o with
      | none => simpa [mergeUpTo] using ih t ks h1 h2.tail h3
      | some u =>
        simpa [mergeUpTo] using ih (K.union t u) ks (hK.union_valid v t u h1 h2.head) h2.tail
          (hK.union_marked v t u h1 h2.head)

/-- On a graph without deletions `add_edge` always returns. -/
theorem addEdge_total (hK : K.Lawful) (hF : K.ForcedPure) {S : Sizing} (hT : S.Top) {g : DK K}
    (hi : g.Inv) (hc : g.nTotal = g.edgesOf.length) (hf : g.Fresh) {e : Edge} (he : InRange g.nv e)
    (h2 : 2 ≤ g.nv) : ∃ g', g.addEdge S e = .ok g' ∧ g'.Fresh := by
  unfold DK.addEdge
  rw [containsForced_pure hF, hi.contains_eq hK he]
  simp only [Res.ok_bind]
  by_cases hm : e ∈ g.edgesOf
  · simp only [hm, decide_true, if_true]
    exact ⟨g, rfl, hf⟩
  · simp only [hm, decide_false, Bool.false_eq_true, if_false]
    have hl : e ∉ g.c0.live := fun hh => hm (List.mem_append_left _ hh)
    have hsz := hi.c0wf.size_eq
    have hmk := hi.c0wf.marked_eq
    have hll := hi.c0wf.live_length
    have hc0m := hf.c0m
    split
    · rename_i hlt
      have hroom : g.c0.room S g.nTotal := by
        unfold C0.room
        rw [hi.c0nv]
        have : g.c0.nElements = g.c0.size := by omega
        omega
      obtain ⟨c', a1, a2, a3, a4, a5, a6⟩ := C0.insert_absent hi.c0wf hl hroom
      rw [a1]
      exact ⟨_, rfl, ⟨by simp only [a5]; exact hf.c0m, hf.trees⟩⟩
    · rename_i hge
      have hsum := sum_total hK hi.val hf.trees
      have hlen : g.edgesOf.length = g.c0.live.length + (flat K g.ks).length := by
        unfold edgesOf; simp
      obtain ⟨r, hr⟩ := selectLevel_some S (max g.nv g.nTotal) g.ks 0 (S.maxsz (max g.nv g.nTotal) 0)
        g.nTotal (by
          intro l hl
          have : l + 1 = RS := by rw [hl, hi.len]; simp
          rw [this, hT]; omega)
        (by intro hh; have := hi.len; rw [hh] at this; simp [RS] at this)
        (by rw [hsum]; omega)
      rw [hr]
      simp only
      rw [hi.c0wf.converted_eq]
      obtain ⟨c', b1, b2, b3, b4, b5, b6, b7⟩ := hi.c0wf.clean_ok
      simp only [Res.ok_bind, b1]
      refine ⟨_, rfl, ⟨b5, ?_⟩⟩
      have hlt := (selectLevel_lt S _ _ _ _ _ hr).2
      rw [Nat.zero_add] at hlt
      have hnd : (g.c0.live ++ [e]).Nodup := by
        rw [List.nodup_append]
        exact ⟨hi.c0wf.live_nodup, by simp, by
          intro a ha b hb hab; simp at hb; exact hl (hb ▸ hab ▸ ha)⟩
      have hrg : ∀ e' ∈ g.c0.live ++ [e], InRange g.nv e' := by
        intro e' he'
        rcases List.mem_append.1 he' with h1 | h1
        · exact hi.range e' (List.mem_append_left _ h1)
        · simp at h1; exact h1 ▸ he
      intro t ht
      rw [mergeUpTo_snd, set_replicate_drop hlt] at ht
      rcases List.mem_append.1 ht with h1 | h1
      · simp [List.mem_replicate] at h1
      · rcases List.mem_cons.1 h1 with h3 | h3
        · cases h3
          exact mergeUpTo_marked hK _ _ _ (hK.build_valid _ _ hnd hrg) hi.val
            (hK.build_marked _ _ hnd hrg)
        · exact hf.trees t (List.mem_of_mem_drop h3)

/-- The history that inserts `es` in order. -/
def inserts (es : List Edge) : List Op := es.map Op.add

theorem inserts_quiet (S : Sizing) (n : Nat) (es : List Edge) : Quiet K S n (inserts es) := by
  intro pre e post h
  exfalso
  have : Op.del e ∈ inserts es := by rw [h]; simp
  simp [inserts] at this

theorem specRun_inserts (es : List Edge) (e : Edge) :
    specRun (fun _ => False) (inserts es) e ↔ e ∈ es := by
  induction es using List.reverseRecOn with
  | nil => simp [inserts, specRun]
  | append_singleton es a ih =>
    have : inserts (es ++ [a]) = inserts es ++ [Op.add a] := by simp [inserts]
    rw [this, specRun_concat, List.mem_append, ← ih]
    show e = a ∨ _ ↔ _
    simp [or_comm]

theorem run_inserts (hK : K.Lawful) (hF : K.ForcedPure) {S : Sizing} (hT : S.Top) {n : Nat}
    (h2 : 2 ≤ n) : ∀ {es : List Edge}, (∀ e ∈ es, InRange n e) →
      ∃ g : DK K, run K S n (inserts es) = .ok g ∧ g.Fresh ∧ g.nv = n ∧
        Exact g (fun e => e ∈ es) := by
  intro es
  induction es using List.reverseRecOn with
  | nil =>
    intro _
    refine ⟨init K S n, ?_, ⟨rfl, ?_⟩, rfl, init_inv S n, ?_, ?_, init_noneAbove S n⟩
    · have : n ≠ 1 := by omega
      simp [run, create, inserts, runFrom, this]
    · intro t ht; simp [init, List.mem_replicate] at ht
    · intro e; simp [init_edges]
    · rw [init_edges]; rfl
  | append_singleton es e ih =>
    intro hr
    obtain ⟨g, h1, hf, hnv, hx⟩ := ih (fun e he => hr e (by simp [he]))
    have he : InRange g.nv e := by rw [hnv]; exact hr e (by simp)
    obtain ⟨g', h3, hf'⟩ := addEdge_total hK hF hT hx.inv hx.cnt hf he (by omega)
    obtain ⟨hx', hnv'⟩ := hx.step hK hF S (o := .add e) he (by intro e' h; cases h) h3
    refine ⟨g', ?_, hf', by rw [hnv', hnv], ?_⟩
    · have : inserts (es ++ [e]) = inserts es ++ [Op.add e] := by simp [inserts]
      rw [this, run_append, h1]
      show (g.addEdge S e >>= fun g' => runFrom S g' []) = .ok g'
      rw [h3]; rfl
    · refine ⟨hx'.inv, ?_, hx'.cnt, hx'.above⟩
      intro e'
      rw [hx'.mem]
      show e' = e ∨ e' ∈ es ↔ _
      simp [or_comm]

end DK
end DK2
