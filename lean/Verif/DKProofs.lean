import Verif.DK
import Verif.C0Proofs
import Mathlib.Data.List.Basic
/-!
# Invariant of `DKtree` and refinement to a set of edges
-/

namespace DK2
namespace DK

variable {K : K2Impl}

/-- Edges of a level. -/
def oedges (K : K2Impl) : Option K.T → List Edge
  | none => []
  | some t => K.edges t

/-- Edges of the levels. -/
def flat (K : K2Impl) (ks : List (Option K.T)) : List Edge := ks.flatMap (oedges K)

/-- All edges of the graph: buffer, then levels. -/
def edgesOf (g : DK K) : List Edge := g.c0.live ++ flat K g.ks

@[simp] theorem flat_nil : flat K [] = [] := rfl
@[simp] theorem flat_none (ks : List (Option K.T)) : flat K (none :: ks) = flat K ks := rfl
@[simp] theorem flat_some (t : K.T) (ks : List (Option K.T)) :
    flat K (some t :: ks) = K.edges t ++ flat K ks := rfl
@[simp] theorem flat_append (a b : List (Option K.T)) : flat K (a ++ b) = flat K a ++ flat K b := by
  simp [flat]
theorem flat_take_drop (n : Nat) (ks : List (Option K.T)) :
    flat K ks = flat K (ks.take n) ++ flat K (ks.drop n) := by
  rw [← flat_append, List.take_append_drop]

@[simp] theorem flat_replicate (n : Nat) : flat K (List.replicate n none) = [] := by
  induction n with
  | zero => rfl
  | succ n ih => rw [List.replicate_succ]; simpa using ih

theorem mem_flat {ks : List (Option K.T)} {e : Edge} :
    e ∈ flat K ks ↔ ∃ t, some t ∈ ks ∧ e ∈ K.edges t := by
  unfold flat
  rw [List.mem_flatMap]
  constructor
  · rintro ⟨o, ho, he⟩
    cases o with
    | none => simp [oedges] at he
    | some t => exact ⟨t, ho, he⟩
  · rintro ⟨t, ho, he⟩; exact ⟨_, ho, he⟩

/-- All trees of a list of levels are valid. -/
def AllValid (K : K2Impl) (n : Nat) (ks : List (Option K.T)) : Prop := ∀ t, some t ∈ ks → K.valid n t

theorem AllValid.tail {n : Nat} {o : Option K.T} {ks : List (Option K.T)}
    (h : AllValid K n (o :: ks)) : AllValid K n ks := fun t ht => h t (by simp [ht])

theorem AllValid.head {n : Nat} {t : K.T} {ks : List (Option K.T)}
    (h : AllValid K n (some t :: ks)) : K.valid n t := h t (by simp)

/-- Structural invariant, without disjointness. -/
structure WInv (g : DK K) : Prop where
  c0wf : g.c0.WF
  c0nv : g.c0.nVertices = g.nv
  len : g.ks.length = RS
  val : AllValid K g.nv g.ks
  maxR_lt : g.maxR < RS
  range : ∀ e ∈ g.edgesOf, InRange g.nv e

/-- The invariant of `DKtree`: every edge is stored exactly once. -/
structure Inv (g : DK K) : Prop extends WInv g where
  nodup : g.edgesOf.Nodup

theorem init_inv (S : Sizing) (n : Nat) : (init K S n).Inv where
  c0wf := C0.new_wf S n
  c0nv := rfl
  len := by simp [init]
  val := by intro t ht; simp [init, List.mem_replicate] at ht
  maxR_lt := by simp [init, RS]
  range := by intro e he; simp [edgesOf, init] at he
  nodup := by simp [edgesOf, init]

theorem init_edges (S : Sizing) (n : Nat) : (init K S n).edgesOf = [] := by simp [edgesOf, init]

/-! ## contains -/

theorem treesContain_iff (hK : K.Lawful) {n : Nat} {e : Edge} (he : InRange n e) :
    ∀ {ks : List (Option K.T)}, AllValid K n ks →
      (treesContain K e ks = true ↔ e ∈ flat K ks) := by
  intro ks
  induction ks with
  | nil => intro _; simp [treesContain]
  | cons o ks ih =>
    intro hv
    cases o with
    | none => simpa [treesContain] using ih hv.tail
    | some t =>
      have h1 := hK.adj_iff n t e hv.head he
      have h2 := ih hv.tail
      simp only [treesContain, flat_some, List.mem_append]
      by_cases hb : K.adj t e = true
      · simp [hb, h1.1 hb]
      · have : e ∉ K.edges t := fun h => hb (h1.2 h)
        simp [hb, this, h2]

/-- `contains` always returns, and answers membership. -/
theorem WInv.contains_eq (hK : K.Lawful) {g : DK K} (h : g.WInv) {e : Edge} (he : InRange g.nv e) :
    g.contains e = .ok (decide (e ∈ g.edgesOf)) := by
  unfold contains
  rw [h.c0wf.contains_eq]
  have h2 := treesContain_iff hK he h.val
  unfold edgesOf
  by_cases hl : e ∈ g.c0.live
  · simp [hl]
  · simp only [hl, decide_false, Res.ok_bind, Bool.false_eq_true, if_false, List.mem_append,
      false_or]
    congr 1
    by_cases hf : e ∈ flat K g.ks
    · simp [hf, h2.2 hf]
    · have : treesContain K e g.ks = false := by
        cases hx : treesContain K e g.ks with
        | false => rfl
        | true => exact absurd (h2.1 hx) hf
      simp [hf, this]

/-! ## contains_forced -/

theorem forcedScan_spec (hK : K.Lawful) {n : Nat} {e : Edge} (he : InRange n e) :
    ∀ {ks : List (Option K.T)}, AllValid K n ks →
      AllValid K n (forcedScan K e ks).2 ∧ (forcedScan K e ks).2.length = ks.length ∧
      ((forcedScan K e ks).1 = true →
        ∀ e', e' ∈ flat K (forcedScan K e ks).2 ↔ e' = e ∨ e' ∈ flat K ks) ∧
      ((forcedScan K e ks).1 = false → e ∉ flat K ks ∧ (forcedScan K e ks).2 = ks) := by
  intro ks
  induction ks with
  | nil => intro h; simp [forcedScan, h]
  | cons o ks ih =>
    intro hv
    obtain ⟨i1, i2, i3, i4⟩ := ih hv.tail
    cases o with
    | none =>
      simp only [forcedScan]
      refine ⟨?_, by simp [i2], ?_, ?_⟩
      · intro t ht; simp at ht; exact i1 t ht
      · intro h e'; simpa using i3 h e'
      · intro h; have := i4 h; simp [this.1, this.2]
    | some t =>
      have hvt := hv.head
      have f1 := hK.forced_valid n t e hvt he
      have f2 := hK.forced_true n t e hvt he
      have f3 := hK.forced_false n t e hvt he
      simp only [forcedScan]
      by_cases hb : (K.adjForced t e).1 = true
      · simp only [hb, if_true]
        refine ⟨?_, by simp, ?_, by simp⟩
        · intro t' ht'
          simp at ht'
          rcases ht' with rfl | h
          · exact f1
          · exact hv.tail t' h
        · intro _ e'
          rw [flat_some, flat_some, List.mem_append, List.mem_append, f2 hb, or_assoc]
          exact or_left_comm
      · have hb' : (K.adjForced t e).1 = false := by simpa using hb
        obtain ⟨f4, f5⟩ := f3 hb'
        simp only [hb', Bool.false_eq_true, if_false]
        refine ⟨?_, by simp [i2], ?_, ?_⟩
        · intro t' ht'
          simp at ht'
          rcases ht' with rfl | h
          · exact f1
          · exact i1 t' h
        · intro h e'
          rw [flat_some, flat_some, List.mem_append, List.mem_append, f5, i3 h]
          exact or_left_comm
        · intro h
          have := i4 h
          simp [this.1, this.2, f4, f5]

theorem forcedScan_pure (hF : K.ForcedPure) (e : Edge) (ks : List (Option K.T)) :
    forcedScan K e ks = (treesContain K e ks, ks) := by
  induction ks with
  | nil => rfl
  | cons o ks ih =>
    cases o with
    | none => simp [forcedScan, treesContain, ih]
    | some t =>
      simp only [forcedScan, treesContain, hF t e, ih]
      split <;> simp_all

/-- With a pure `adj_forced`, `contains_forced` is `contains` and changes nothing. -/
theorem containsForced_pure (hF : K.ForcedPure) (g : DK K) (e : Edge) :
    g.containsForced e = (g.contains e >>= fun b => .ok (b, g)) := by
  unfold containsForced contains
  rw [forcedScan_pure hF]
  cases g.c0.contains e with
  | ok b => cases b <;> simp
  | _ => rfl

/-! ## merging -/

theorem mergeUpTo_snd (n : Nat) : ∀ (t : K.T) (ks : List (Option K.T)),
    (mergeUpTo K n t ks).2 = List.replicate (min n ks.length) none ++ ks.drop n := by
  induction n with
  | zero => intro t ks; simp [mergeUpTo]
  | succ n ih =>
    intro t ks
    cases ks with
    | nil => simp [mergeUpTo]
    | cons o ks =>
      cases o with
      | none => simp [mergeUpTo, ih, Nat.add_min_add_right, List.replicate_succ]
      | some u => simp [mergeUpTo, ih, Nat.add_min_add_right, List.replicate_succ]

theorem mergeUpTo_fst (hK : K.Lawful) {v : Nat} (n : Nat) : ∀ (t : K.T) (ks : List (Option K.T)),
    K.valid v t → AllValid K v ks →
    K.valid v (mergeUpTo K n t ks).1 ∧
    ∀ e, e ∈ K.edges (mergeUpTo K n t ks).1 ↔ e ∈ K.edges t ∨ e ∈ flat K (ks.take n) := by
  induction n with
  | zero => intro t ks h1 _; simp [mergeUpTo, h1]
  | succ n ih =>
    intro t ks h1 h2
    cases ks with
    | nil => simp [mergeUpTo, h1]
    | cons o ks =>
      cases o with
      | none => simpa [mergeUpTo] using ih t ks h1 h2.tail
      | some u =>
        have h3 := hK.union_valid v t u h1 h2.head
        have h4 := hK.union_edges v t u h1 h2.head
        obtain ⟨a, b⟩ := ih (K.union t u) ks h3 h2.tail
        refine ⟨a, ?_⟩
        intro e
        simp only [mergeUpTo, List.take_succ_cons, flat_some, List.mem_append]
        rw [b e, h4 e, or_assoc]

theorem selectLevel_lt (S : Sizing) (m : Nat) : ∀ (ks : List (Option K.T)) (i acc r : Nat),
    selectLevel K S m ks i acc = some r → i ≤ r ∧ r < i + ks.length := by
  intro ks
  induction ks with
  | nil => intro i acc r h; simp [selectLevel] at h
  | cons o ks ih =>
    intro i acc r h
    cases o with
    | none =>
      simp only [selectLevel] at h
      split at h
      · simp at h; subst h; simp
      · have := ih _ _ _ h
        simp; omega
    | some t =>
      simp only [selectLevel] at h
      split at h
      · simp at h; subst h; simp
      · have := ih _ _ _ h
        simp; omega

theorem set_replicate_drop {α : Type} {i : Nat} {ks : List (Option α)} (hi : i < ks.length) (t : α) :
    ((List.replicate (min (i + 1) ks.length) none ++ ks.drop (i + 1)).set i (some t))
      = List.replicate i none ++ some t :: ks.drop (i + 1) := by
  have : min (i + 1) ks.length = i + 1 := by omega
  rw [this, List.replicate_succ', List.append_assoc]
  rw [List.set_append_right _ _ (by simp)]
  simp

/-! ## add_edge -/

/-- What `add_edge` does to the abstract state (any lawful tree). -/
theorem WInv.addEdge (hK : K.Lawful) (S : Sizing) {g g' : DK K} (h : g.WInv) {e : Edge}
    (he : InRange g.nv e) (hr : g.addEdge S e = .ok g') :
    g'.WInv ∧ g'.nv = g.nv ∧ (∀ e', e' ∈ g'.edgesOf ↔ e' = e ∨ e' ∈ g.edgesOf) := by
  unfold DK.addEdge at hr
  unfold containsForced at hr
  rw [h.c0wf.contains_eq] at hr
  simp only [Res.ok_bind] at hr
  by_cases hl : e ∈ g.c0.live
  · simp only [hl, decide_true, if_true, Res.ok_bind, Res.ok.injEq] at hr
    subst hr
    refine ⟨h, rfl, ?_⟩
    intro e'
    constructor
    · exact Or.inr
    · rintro (rfl | h')
      · exact List.mem_append_left _ hl
      · exact h'
  simp only [hl, decide_false, Bool.false_eq_true, if_false, Res.ok_bind] at hr
  obtain ⟨s1, s2, s3, s4⟩ := forcedScan_spec hK he h.val
  by_cases hb : (forcedScan K e g.ks).1 = true
  · simp only [hb, if_true, Res.ok.injEq] at hr
    subst hr
    have hm : ∀ e', e' ∈ edgesOf { g with ks := (forcedScan K e g.ks).2 } ↔ e' = e ∨ e' ∈ g.edgesOf := by
      intro e'
      simp only [edgesOf, List.mem_append, s3 hb]
      tauto
    refine ⟨⟨h.c0wf, h.c0nv, by simp [s2, h.len], s1, h.maxR_lt, ?_⟩, rfl, hm⟩
    intro e' he'
    rcases (hm e').1 he' with rfl | h1
    · exact he
    · exact h.range e' h1
  · have hb' : (forcedScan K e g.ks).1 = false := by simpa using hb
    obtain ⟨s5, s6⟩ := s4 hb'
    simp only [hb', Bool.false_eq_true, if_false] at hr
    rw [s6] at hr
    split at hr
    · -- into the buffer
      rename_i hsz
      rw [Res.bind_eq_ok] at hr
      obtain ⟨c, hc, hr⟩ := hr
      simp only [Res.ok.injEq] at hr
      by_cases hroom : g.c0.room S g.nTotal
      · obtain ⟨c', a1, a2, a3, a4, a5, a6⟩ := C0.insert_absent h.c0wf hl hroom
        rw [a1] at hc
        simp only [Res.ok.injEq] at hc
        subst hc; subst hr
        have hm : ∀ e', e' ∈ edgesOf { g with c0 := c', nTotal := g.nTotal + 1 }
            ↔ e' = e ∨ e' ∈ g.edgesOf := by
          intro e'
          simp only [edgesOf, a3, List.mem_append, List.mem_singleton]
          tauto
        refine ⟨⟨a2, by simp [a6, h.c0nv], h.len, h.val, h.maxR_lt, ?_⟩, rfl, hm⟩
        intro e' he'
        rcases (hm e').1 he' with rfl | h1
        · exact he
        · exact h.range e' h1
      · rw [C0.insert_noroom h.c0wf hl hroom] at hc
        cases hc
    · split at hr
      · cases hr
      · rename_i i hsel
        have hi := (selectLevel_lt S _ _ _ _ _ hsel).2
        rw [Nat.zero_add] at hi
        rw [h.c0wf.converted_eq] at hr
        obtain ⟨c', b1, b2, b3, b4, b5, b6, b7⟩ := h.c0wf.clean_ok
        simp only [Res.ok_bind, b1, Res.ok.injEq] at hr
        have hnd : (g.c0.live ++ [e]).Nodup := by
          rw [List.nodup_append]
          exact ⟨h.c0wf.live_nodup, by simp, by
            intro a ha b hb hab; simp at hb; exact hl (hb ▸ hab ▸ ha)⟩
        have hrg : ∀ e' ∈ g.c0.live ++ [e], InRange g.nv e' := by
          intro e' he'
          rcases List.mem_append.1 he' with h1 | h1
          · exact h.range e' (List.mem_append_left _ h1)
          · simp at h1; exact h1 ▸ he
        have hbv := hK.build_valid _ _ hnd hrg
        have hbe := hK.build_edges _ _ hnd hrg
        obtain ⟨m1, m2⟩ := mergeUpTo_fst hK (i + 1) _ g.ks hbv h.val
        rw [mergeUpTo_snd, set_replicate_drop hi] at hr
        subst hr
        have hm : ∀ e', e' ∈ edgesOf (K := K) { g with
            maxR := max i g.maxR
            c0 := c'
            ks := List.replicate i none ++
              some (mergeUpTo K (i + 1) (K.build (g.c0.live ++ [e]) g.nv) g.ks).1 :: g.ks.drop (i + 1)
            nTotal := g.nTotal + 1 } ↔ e' = e ∨ e' ∈ g.edgesOf := by
          intro e'
          simp only [edgesOf, b3, flat_append, flat_replicate, flat_some, List.nil_append,
            List.mem_append, m2, hbe, List.mem_singleton]
          rw [flat_take_drop (i + 1) g.ks, List.mem_append]
          tauto
        refine ⟨⟨b2, by simp [b7, h.c0nv], ?_, ?_, ?_, ?_⟩, rfl, hm⟩
        · have := h.len
          simp only [List.length_append, List.length_replicate, List.length_cons, List.length_drop]
          omega
        · intro t ht
          rcases List.mem_append.1 ht with h1 | h1
          · simp [List.mem_replicate] at h1
          · rcases List.mem_cons.1 h1 with h2 | h2
            · cases h2; exact m1
            · exact h.val t (List.mem_of_mem_drop h2)
        · have := h.maxR_lt
          have := h.len
          simp only
          omega
        · intro e' he'
          rcases (hm e').1 he' with rfl | h1
          · exact he
          · exact h.range e' h1

/-- What `add_edge` does when `adj_forced` is pure: every edge stays stored once and the counter is
exact. -/
theorem Inv.addEdge (hK : K.Lawful) (hF : K.ForcedPure) (S : Sizing) {g g' : DK K} (h : g.Inv)
    {e : Edge} (he : InRange g.nv e) (hr : g.addEdge S e = .ok g') :
    g'.Inv ∧ g'.nv = g.nv ∧ (∀ e', e' ∈ g'.edgesOf ↔ e' = e ∨ e' ∈ g.edgesOf) ∧
    (e ∈ g.edgesOf → g' = g) ∧ (e ∉ g.edgesOf → g'.nTotal = g.nTotal + 1) := by
  obtain ⟨w1, w2, w3⟩ := h.toWInv.addEdge hK S he hr
  unfold DK.addEdge at hr
  rw [containsForced_pure hF, h.contains_eq hK he] at hr
  simp only [Res.ok_bind] at hr
  by_cases hm : e ∈ g.edgesOf
  · simp only [hm, decide_true, if_true, Res.ok.injEq] at hr
    subst hr
    exact ⟨h, rfl, w3, fun _ => rfl, fun hh => absurd hm hh⟩
  · simp only [hm, decide_false, Bool.false_eq_true, if_false] at hr
    have hl : e ∉ g.c0.live := fun hh => hm (List.mem_append_left _ hh)
    split at hr
    · rw [Res.bind_eq_ok] at hr
      obtain ⟨c, hc, hr⟩ := hr
      simp only [Res.ok.injEq] at hr
      by_cases hroom : g.c0.room S g.nTotal
      · obtain ⟨c', a1, a2, a3, a4, a5, a6⟩ := C0.insert_absent h.c0wf hl hroom
        rw [a1] at hc
        simp only [Res.ok.injEq] at hc
        subst hc; subst hr
        refine ⟨⟨w1, ?_⟩, rfl, w3, fun hh => absurd hh hm, fun _ => rfl⟩
        have hnd := h.nodup
        unfold edgesOf at hnd hm ⊢
        simp only [a3]
        rw [List.append_assoc, List.nodup_append]
        rw [List.nodup_append] at hnd
        refine ⟨hnd.1, ?_, ?_⟩
        · simp only [List.singleton_append, List.nodup_cons]
          exact ⟨fun hh => hm (List.mem_append_right _ hh), hnd.2.1⟩
        · intro a ha b hb
          simp only [List.singleton_append, List.mem_cons] at hb
          rcases hb with rfl | hb
          · rintro rfl; exact hl ha
          · exact hnd.2.2 a ha b hb
      · rw [C0.insert_noroom h.c0wf hl hroom] at hc
        cases hc
    · split at hr
      · cases hr
      · rename_i i hsel
        have hi := (selectLevel_lt S _ _ _ _ _ hsel).2
        rw [Nat.zero_add] at hi
        rw [h.c0wf.converted_eq] at hr
        obtain ⟨c', b1, b2, b3, b4, b5, b6, b7⟩ := h.c0wf.clean_ok
        simp only [Res.ok_bind, b1, Res.ok.injEq] at hr
        have hnd : (g.c0.live ++ [e]).Nodup := by
          rw [List.nodup_append]
          exact ⟨h.c0wf.live_nodup, by simp, by
            intro a ha b hb hab; simp at hb; exact hl (hb ▸ hab ▸ ha)⟩
        have hrg : ∀ e' ∈ g.c0.live ++ [e], InRange g.nv e' := by
          intro e' he'
          rcases List.mem_append.1 he' with h1 | h1
          · exact h.range e' (List.mem_append_left _ h1)
          · simp at h1; exact h1 ▸ he
        have hbv := hK.build_valid _ _ hnd hrg
        have hbe := hK.build_edges _ _ hnd hrg
        obtain ⟨m1, m2⟩ := mergeUpTo_fst hK (i + 1) _ g.ks hbv h.val
        rw [mergeUpTo_snd, set_replicate_drop hi] at hr
        subst hr
        refine ⟨⟨w1, ?_⟩, rfl, w3, fun hh => absurd hh hm, fun _ => rfl⟩
        have hnd2 := h.nodup
        unfold edgesOf at hnd2 hm ⊢
        simp only [b3, flat_append, flat_replicate, flat_some, List.nil_append]
        rw [flat_take_drop (i + 1) g.ks, ← List.append_assoc] at hnd2 hm
        rw [List.nodup_append] at hnd2 ⊢
        refine ⟨hK.edges_nodup _ _ m1, hnd2.2.1, ?_⟩
        intro a ha b hb
        rw [m2, hbe] at ha
        rcases ha with ha | ha
        · rcases List.mem_append.1 ha with h1 | h1
          · exact hnd2.2.2 a (List.mem_append_left _ h1) b hb
          · simp at h1
            rintro rfl
            exact hm (List.mem_append_right _ (h1 ▸ hb))
        · exact hnd2.2.2 a (List.mem_append_right _ ha) b hb

/-! ## del_edge -/

theorem eraseScan_spec (hK : K.Lawful) {n : Nat} {e : Edge} (he : InRange n e) :
    ∀ {ks : List (Option K.T)}, AllValid K n ks → (flat K ks).Nodup →
      AllValid K n (eraseScan K e ks).2 ∧ (eraseScan K e ks).2.length = ks.length ∧
      ((eraseScan K e ks).1 = true ↔ e ∈ flat K ks) ∧
      (∀ e', e' ∈ flat K (eraseScan K e ks).2 ↔ e' ∈ flat K ks ∧ e' ≠ e) ∧
      (flat K (eraseScan K e ks).2).Nodup := by
  intro ks
  induction ks with
  | nil => intro h _; simp [eraseScan, h]
  | cons o ks ih =>
    intro hv hnd
    cases o with
    | none =>
      obtain ⟨i1, i2, i3, i4, i5⟩ := ih hv.tail (by simpa using hnd)
      simp only [eraseScan, flat_none]
      refine ⟨?_, by simp [i2], i3, i4, i5⟩
      intro t ht; simp at ht; exact i1 t ht
    | some t =>
      rw [flat_some, List.nodup_append] at hnd
      obtain ⟨i1, i2, i3, i4, i5⟩ := ih hv.tail hnd.2.1
      have hvt := hv.head
      have f1 := hK.erase_valid n t e hvt he
      have f2 := hK.erase_fst n t e hvt he
      have f3 := hK.erase_edges n t e hvt he
      have f4 := hK.adj_iff n t e hvt he
      have f5 := hK.edges_nodup n _ f1
      simp only [eraseScan]
      by_cases hb : (K.erase t e).1 = true
      · have hmem : e ∈ K.edges t := f4.1 (f2 ▸ hb)
        have hnot : e ∉ flat K ks := fun hh => hnd.2.2 e hmem e hh rfl
        simp only [hb, if_true]
        refine ⟨?_, by simp, by simp [hmem], ?_, ?_⟩
        · intro t' ht'
          simp at ht'
          rcases ht' with rfl | h
          · exact f1
          · exact hv.tail t' h
        · intro e'
          rw [flat_some, flat_some, List.mem_append, List.mem_append, f3]
          constructor
          · rintro (⟨h1, h2⟩ | h1)
            · exact ⟨Or.inl h1, h2⟩
            · exact ⟨Or.inr h1, fun hh => hnot (hh ▸ h1)⟩
          · rintro ⟨h1 | h1, h2⟩
            · exact Or.inl ⟨h1, h2⟩
            · exact Or.inr h1
        · rw [flat_some, List.nodup_append]
          exact ⟨f5, hnd.2.1, fun a ha b hb => hnd.2.2 a ((f3 a).1 ha).1 b hb⟩
      · have hnm : e ∉ K.edges t := fun hh => hb (by rw [f2]; exact f4.2 hh)
        have hb' : (K.erase t e).1 = false := by simpa using hb
        simp only [hb', Bool.false_eq_true, if_false]
        refine ⟨?_, by simp [i2], ?_, ?_, ?_⟩
        · intro t' ht'
          simp at ht'
          rcases ht' with rfl | h
          · exact f1
          · exact i1 t' h
        · rw [i3, flat_some, List.mem_append]
          exact ⟨Or.inr, fun hh => hh.resolve_left hnm⟩
        · intro e'
          rw [flat_some, flat_some, List.mem_append, List.mem_append, f3, i4]
          constructor
          · rintro (⟨h1, h2⟩ | ⟨h1, h2⟩)
            · exact ⟨Or.inl h1, h2⟩
            · exact ⟨Or.inr h1, h2⟩
          · rintro ⟨h1 | h1, h2⟩
            · exact Or.inl ⟨h1, h2⟩
            · exact Or.inr ⟨h1, h2⟩
        · rw [flat_some, List.nodup_append]
          exact ⟨f5, i5, fun a ha b hb => hnd.2.2 a ((f3 a).1 ha).1 b ((i4 b).1 hb).1⟩

theorem sweep_spec (hK : K.Lawful) {n : Nat} :
    ∀ {ks : List (Option K.T)}, AllValid K n ks →
      AllValid K n (sweep K ks).2 ∧ (sweep K ks).2.length = ks.length ∧
      flat K (sweep K ks).2 = flat K ks ∧
      (0 < (sweep K ks).1 → ∃ t, some t ∈ (sweep K ks).2) := by
  intro ks
  induction ks with
  | nil => intro h; simp [sweep, h]
  | cons o ks ih =>
    intro hv
    obtain ⟨i1, i2, i3, i4⟩ := ih hv.tail
    cases o with
    | none =>
      simp only [sweep]
      refine ⟨?_, by simp [i2], by simpa using i3, ?_⟩
      · intro t ht; simp at ht; exact i1 t ht
      · intro h; obtain ⟨t, ht⟩ := i4 h; exact ⟨t, by simp [ht]⟩
    | some t =>
      simp only [sweep]
      split
      · rename_i hm
        have htot := hK.total_eq n t hv.head
        have hnil : K.edges t = [] := by
          apply List.length_eq_zero_iff.1; omega
        refine ⟨?_, by simp [i2], by simp [i3, hnil], ?_⟩
        · intro t ht; simp at ht; exact i1 t ht
        · intro h; obtain ⟨t, ht⟩ := i4 h; exact ⟨t, by simp [ht]⟩
      · refine ⟨?_, by simp [i2], by simp [i3], fun _ => ⟨t, by simp⟩⟩
        intro t' ht'
        simp at ht'
        rcases ht' with rfl | h
        · exact hv.head
        · exact i1 t' h

theorem mergeAll_some (hK : K.Lawful) {v : Nat} : ∀ (ks : List (Option K.T)) (t : K.T),
    K.valid v t → AllValid K v ks →
    ∃ t', mergeAll K (some t) ks = .ok (some t') ∧ K.valid v t' ∧
      ∀ e, e ∈ K.edges t' ↔ e ∈ K.edges t ∨ e ∈ flat K ks := by
  intro ks
  induction ks with
  | nil => intro t h1 _; exact ⟨t, rfl, h1, by simp⟩
  | cons o ks ih =>
    intro t h1 h2
    cases o with
    | none => simpa [mergeAll] using ih t h1 h2.tail
    | some u =>
      have h3 := hK.union_valid v t u h1 h2.head
      have h4 := hK.union_edges v t u h1 h2.head
      obtain ⟨t', a, b, c⟩ := ih (K.union t u) h3 h2.tail
      refine ⟨t', by simpa [mergeAll] using a, b, ?_⟩
      intro e
      rw [c e, h4 e, flat_some, List.mem_append, or_assoc]

theorem mergeAll_none : ∀ (ks : List (Option K.T)) (t : K.T), some t ∈ ks →
    mergeAll K none ks = .ub := by
  intro ks
  induction ks with
  | nil => intro t h; simp at h
  | cons o ks ih =>
    intro t h
    cases o with
    | none => simp at h; simpa [mergeAll] using ih t h
    | some u => rfl

theorem rebuildLevel_le (S : Sizing) (m n : Nat) : rebuildLevel S m n ≤ RS := by
  unfold rebuildLevel
  cases h : (List.range RS).find? (fun i => decide (S.maxsz m (i + 1) > n)) with
  | none => simp
  | some i =>
    have := List.mem_of_find?_eq_some h
    simp at this ⊢
    omega

theorem flat_set_replicate {n i : Nat} (hi : i < n) (t : K.T) :
    flat K ((List.replicate n (none : Option K.T)).set i (some t)) = K.edges t := by
  induction n generalizing i with
  | zero => omega
  | succ n ih =>
    cases i with
    | zero => rw [List.replicate_succ]; simp
    | succ i => rw [List.replicate_succ]; simpa using ih (by omega)

theorem mem_set_replicate {n i : Nat} {t u : K.T}
    (h : some u ∈ (List.replicate n (none : Option K.T)).set i (some t)) : u = t := by
  rcases List.mem_or_eq_of_mem_set h with h1 | h1
  · simp [List.mem_replicate] at h1
  · exact Option.some.inj h1

theorem mem_of_size_zero {g : DK K} (h : g.WInv) (h0 : g.c0.size = 0) {e : Edge} :
    e ∈ g.edgesOf ↔ e ∈ flat K g.ks := by
  have := h.c0wf.size_eq
  have : g.c0.live = [] := List.length_eq_zero_iff.1 (by omega)
  simp [edgesOf, this]

/-- What the rebuild does when it returns: `(1,1)` is gone, every other pair keeps its membership,
and the counter is wrong by the bogus `add_edge(1,1)` or by the loss of `(1,1)`. -/
theorem Inv.rebuild (hK : K.Lawful) (hF : K.ForcedPure) (S : Sizing) {g g' : DK K} (h : g.Inv)
    (hnv : 2 ≤ g.nv) (hr : g.rebuild S = .ok g') :
    g'.Inv ∧ g'.nv = g.nv ∧
    (∀ e', e' ∈ g'.edgesOf ↔ e' ∈ g.edgesOf ∧ e' ≠ (1, 1)) ∧
    g'.nTotal = g.nTotal + (if g.c0.size = 0 then 1 else 0) ∧
    (g.c0.size = 0 → (1, 1) ∉ g.edgesOf) ∧ g'.c0.live = [] := by
  have h11 : InRange g.nv (1, 1) := ⟨by simp; omega, by simp; omega⟩
  unfold DK.rebuild at hr
  rw [Res.bind_eq_ok] at hr
  obtain ⟨⟨oo, g1⟩, hprep, hr⟩ := hr
  rw [Res.bind_eq_ok] at hr
  obtain ⟨⟨tmp, c1⟩, hdrain, hr⟩ := hr
  rw [Res.bind_eq_ok] at hr
  obtain ⟨tmp', hmerge, hr⟩ := hr
  rw [Res.bind_eq_ok] at hr
  obtain ⟨ks, hks, hr⟩ := hr
  rw [wr_eq_ok] at hks
  obtain ⟨hi, rfl⟩ := hks
  simp only at hdrain hmerge hr
  -- facts about the preparation
  have hp : oo = false ∧ g1.Inv ∧ g1.nv = g.nv ∧
      (∀ e', e' ≠ (1, 1) → (e' ∈ g1.edgesOf ↔ e' ∈ g.edgesOf)) ∧
      g1.nTotal = g.nTotal + (if g.c0.size = 0 then 1 else 0) ∧
      (g.c0.size = 0 → (1, 1) ∉ g.edgesOf) := by
    unfold rebuildPrep at hprep
    split at hprep
    · rename_i h0
      rw [h.contains_eq hK h11] at hprep
      simp only [Res.ok_bind] at hprep
      rw [Res.bind_eq_ok] at hprep
      obtain ⟨g2, hadd, hp2⟩ := hprep
      simp only [Res.ok.injEq, Prod.mk.injEq] at hp2
      obtain ⟨rfl, rfl⟩ := hp2
      obtain ⟨a1, a2, a3, a4, a5⟩ := h.addEdge hK hF S h11 hadd
      by_cases hm : (1, 1) ∈ g.edgesOf
      · exfalso
        have := a4 hm
        subst this
        unfold rebuildDrain at hdrain
        rw [if_neg (by omega)] at hdrain
        simp only [Res.ok.injEq, Prod.mk.injEq] at hdrain
        obtain ⟨rfl, rfl⟩ := hdrain
        obtain ⟨t, ht, _⟩ := mem_flat.1 ((mem_of_size_zero h.toWInv h0).1 hm)
        rw [mergeAll_none _ t ht] at hmerge
        cases hmerge
      · refine ⟨by simp [hm], a1, a2, ?_, by simp [h0, a5 hm], fun _ => hm⟩
        intro e' he'
        rw [a3]
        exact ⟨fun hh => hh.resolve_left he', Or.inr⟩
    · rename_i h0
      simp only [Res.ok.injEq, Prod.mk.injEq] at hprep
      obtain ⟨rfl, rfl⟩ := hprep
      exact ⟨rfl, h, rfl, fun _ _ => Iff.rfl, by simp [h0], fun hh => absurd hh h0⟩
  obtain ⟨rfl, i1, i2, i3, i4, i5⟩ := hp
  simp only [Bool.false_eq_true, if_false] at hr
  cases htmp : tmp' with
  | none => rw [htmp] at hr; simp at hr
  | some t =>
    rw [htmp] at hr
    simp only [Res.ok.injEq] at hr
    unfold rebuildDrain at hdrain
    split at hdrain
    · rename_i hpos
      rw [i1.c0wf.converted_eq] at hdrain
      obtain ⟨c', b1, b2, b3, b4, b5, b6, b7⟩ := i1.c0wf.clean_ok
      simp only [Res.ok_bind, b1, Res.ok.injEq, Prod.mk.injEq] at hdrain
      obtain ⟨rfl, rfl⟩ := hdrain
      have hlr : ∀ e ∈ g1.c0.live, InRange g1.nv e := fun e he =>
        i1.range e (List.mem_append_left _ he)
      have hbv := hK.build_valid _ _ i1.c0wf.live_nodup hlr
      have hbe := hK.build_edges _ _ i1.c0wf.live_nodup hlr
      obtain ⟨t', m1, m2, m3⟩ := mergeAll_some hK g1.ks _ hbv i1.val
      rw [m1] at hmerge
      simp only [Res.ok.injEq] at hmerge
      rw [htmp] at hmerge
      cases hmerge
      have h11' : InRange g1.nv (1, 1) := by rw [i2]; exact h11
      have e1 := hK.erase_valid _ _ _ m2 h11'
      have e2 := hK.erase_edges _ _ _ m2 h11'
      rw [List.set_set] at hr
      have hed : ∀ e', e' ∈ K.edges (K.erase t (1, 1)).2 ↔ e' ∈ g.edgesOf ∧ e' ≠ (1, 1) := by
        intro e'
        rw [e2, m3, hbe]
        constructor
        · rintro ⟨ha, hb⟩
          exact ⟨(i3 e' hb).1 (List.mem_append.2 ha), hb⟩
        · rintro ⟨ha, hb⟩
          exact ⟨List.mem_append.1 ((i3 e' hb).2 ha), hb⟩
      have hi' : rebuildLevel S (max g.nv g.nTotal) g.nTotal < RS := by simpa using hi
      subst hr
      refine ⟨⟨⟨b2, by simp [b7, i1.c0nv], by simp, ?_, i1.maxR_lt, ?_⟩, ?_⟩, i2, ?_, i4, i5, b3⟩
      · intro u hu
        rw [mem_set_replicate hu]; exact e1
      · intro e' he'
        simp only [edgesOf, b3, List.nil_append, flat_set_replicate hi'] at he'
        simp only [i2]
        exact h.range e' ((hed e').1 he').1
      · simp only [edgesOf, b3, List.nil_append, flat_set_replicate hi']
        exact hK.edges_nodup _ _ e1
      · intro e'
        simp only [edgesOf, b3, List.nil_append, flat_set_replicate hi']
        exact hed e'
    · -- empty buffer: tmp is null
      simp only [Res.ok.injEq, Prod.mk.injEq] at hdrain
      obtain ⟨rfl, rfl⟩ := hdrain
      exfalso
      by_cases hx : ∃ u, some u ∈ g1.ks
      · obtain ⟨u, hu⟩ := hx
        rw [mergeAll_none _ u hu] at hmerge
        cases hmerge
      · have hall : ∀ ks : List (Option K.T), (¬ ∃ u, some u ∈ ks) → mergeAll K none ks = .ok none := by
          intro ks
          induction ks with
          | nil => intro _; rfl
          | cons o ks ih =>
            intro hh
            cases o with
            | none => simp only [mergeAll]; exact ih (fun ⟨u, hu⟩ => hh ⟨u, by simp [hu]⟩)
            | some u => exact absurd ⟨u, by simp⟩ hh
        rw [hall _ hx] at hmerge
        simp only [Res.ok.injEq] at hmerge
        rw [htmp] at hmerge
        cases hmerge

/-- The state reached by `del_edge` before the rebuild test. -/
theorem Inv.afterErase (hK : K.Lawful) {g : DK K} (h : g.Inv) {e : Edge} (he : InRange g.nv e)
    (hl : e ∉ g.c0.live) :
    (g.afterErase e).2.Inv ∧ (g.afterErase e).2.nv = g.nv ∧
    (∀ e', e' ∈ (g.afterErase e).2.edgesOf ↔ e' ∈ g.edgesOf ∧ e' ≠ e) ∧
    (g.afterErase e).2.nTotal = (if e ∈ g.edgesOf then decr g.nTotal else g.nTotal) ∧
    (g.afterErase e).2.maxR = g.maxR ∧ (g.afterErase e).2.c0 = g.c0 ∧
    (0 < (g.afterErase e).1 → ∃ t, some t ∈ (g.afterErase e).2.ks) := by
  have hnd := h.nodup
  unfold edgesOf at hnd
  rw [List.nodup_append] at hnd
  obtain ⟨a1, a2, a3, a4, a5⟩ := eraseScan_spec hK he h.val hnd.2.1
  obtain ⟨b1, b2, b3, b4⟩ := sweep_spec hK a1
  have hm : ∀ e', e' ∈ (g.afterErase e).2.edgesOf ↔ e' ∈ g.edgesOf ∧ e' ≠ e := by
    intro e'
    simp only [DK.afterErase, edgesOf, b3, List.mem_append, a4]
    constructor
    · rintro (h1 | ⟨h1, h2⟩)
      · exact ⟨Or.inl h1, fun hh => hl (hh ▸ h1)⟩
      · exact ⟨Or.inr h1, h2⟩
    · rintro ⟨h1 | h1, h2⟩
      · exact Or.inl h1
      · exact Or.inr ⟨h1, h2⟩
  refine ⟨⟨⟨h.c0wf, h.c0nv, ?_, b1, h.maxR_lt, ?_⟩, ?_⟩, rfl, hm, ?_, rfl, rfl, b4⟩
  · simp only [DK.afterErase]; rw [b2, a2]; exact h.len
  · intro e' he'; exact h.range e' ((hm e').1 he').1
  · simp only [DK.afterErase, edgesOf, b3]
    rw [List.nodup_append]
    exact ⟨hnd.1, a5, fun a ha b hb => hnd.2.2 a ha b ((a4 b).1 hb).1⟩
  · simp only [DK.afterErase]
    have : e ∈ g.edgesOf ↔ (eraseScan K e g.ks).1 = true := by
      rw [a3]; unfold edgesOf; rw [List.mem_append]
      exact ⟨fun hh => hh.resolve_left hl, Or.inr⟩
    by_cases hb : (eraseScan K e g.ks).1 = true <;> simp [this, hb]

/-- What `del_edge` does when it does not rebuild. -/
theorem Inv.delEdge_quiet (hK : K.Lawful) (S : Sizing) {g : DK K} (h : g.Inv) {e : Edge}
    (he : InRange g.nv e) (hq : g.rebuilds S e = false) :
    ∃ g', g.delEdge S e = .ok g' ∧ g'.Inv ∧ g'.nv = g.nv ∧
    (∀ e', e' ∈ g'.edgesOf ↔ e' ∈ g.edgesOf ∧ e' ≠ e) ∧
    g'.nTotal = (if e ∈ g.edgesOf then decr g.nTotal else g.nTotal) ∧ g'.maxR = g.maxR := by
  obtain ⟨c', a1, a2, a3, a4, a5, a6⟩ := h.c0wf.erase_ok e
  unfold rebuilds at hq
  unfold DK.delEdge
  rw [a1] at hq ⊢
  simp only [Res.ok_bind]
  have hnd := h.nodup
  unfold edgesOf at hnd
  rw [List.nodup_append] at hnd
  by_cases hl : e ∈ g.c0.live
  · simp only [hl, decide_true, if_true]
    refine ⟨_, rfl, ?_⟩
    have hmem : e ∈ g.edgesOf := List.mem_append_left _ hl
    have hnf : e ∉ flat K g.ks := fun hh => hnd.2.2 e hl e hh rfl
    have hm : ∀ e', e' ∈ edgesOf { g with c0 := c', nTotal := decr g.nTotal }
        ↔ e' ∈ g.edgesOf ∧ e' ≠ e := by
      intro e'
      simp only [edgesOf, a3, List.mem_append, List.mem_filter, decide_eq_true_eq]
      constructor
      · rintro (⟨h1, h2⟩ | h1)
        · exact ⟨Or.inl h1, h2⟩
        · exact ⟨Or.inr h1, fun hh => hnf (hh ▸ h1)⟩
      · rintro ⟨h1 | h1, h2⟩
        · exact Or.inl ⟨h1, h2⟩
        · exact Or.inr h1
    refine ⟨⟨⟨a2, by simp [a6, h.c0nv], h.len, h.val, h.maxR_lt, ?_⟩, ?_⟩, rfl, hm, by simp [hmem], rfl⟩
    · intro e' he'; exact h.range e' ((hm e').1 he').1
    · simp only [edgesOf, a3]
      rw [List.nodup_append]
      exact ⟨hnd.1.filter _, hnd.2.1, fun a ha b hb => hnd.2.2 a (List.mem_filter.1 ha).1 b hb⟩
  · simp only [hl, decide_false, Bool.false_eq_true, if_false] at hq ⊢
    have hfil : g.c0.live.filter (fun e' => decide (e' ≠ e)) = g.c0.live := by
      rw [List.filter_eq_self]
      intro a ha
      have : a ≠ e := fun hh => hl (hh ▸ ha)
      simpa using this
    have hedges : edgesOf { g with c0 := c' } = g.edgesOf := by simp only [edgesOf, a3, hfil]
    have hi : Inv { g with c0 := c' } := by
      refine ⟨⟨a2, by simp [a6, h.c0nv], h.len, h.val, h.maxR_lt, ?_⟩, ?_⟩
      · rw [hedges]; exact h.range
      · rw [hedges]; exact h.nodup
    have hl' : e ∉ ({ g with c0 := c' } : DK K).c0.live := by simp only [a3, hfil]; exact hl
    obtain ⟨b1, b2, b3, b4, b5, _, _⟩ := hi.afterErase hK he hl'
    rw [if_neg (by simp [hq])]
    refine ⟨_, rfl, b1, b2, ?_, ?_, b5⟩
    · rw [hedges] at b3; exact b3
    · rw [hedges] at b4; exact b4

/-- What `del_edge` does when it rebuilds and returns. -/
theorem Inv.delEdge_rebuild (hK : K.Lawful) (hF : K.ForcedPure) (S : Sizing) {g g' : DK K}
    (h : g.Inv) {e : Edge} (he : InRange g.nv e) (hnv : 2 ≤ g.nv) (hq : g.rebuilds S e = true)
    (hr : g.delEdge S e = .ok g') :
    g'.Inv ∧ g'.nv = g.nv ∧
    (∀ e', e' ∈ g'.edgesOf ↔ e' ∈ g.edgesOf ∧ e' ≠ e ∧ e' ≠ (1, 1)) ∧
    g'.nTotal = (if e ∈ g.edgesOf then decr g.nTotal else g.nTotal) +
      (if g.c0.live = [] then 1 else 0) ∧
    (g.c0.live = [] → (1, 1) ∈ g.edgesOf → e = (1, 1)) := by
  obtain ⟨c', a1, a2, a3, a4, a5, a6⟩ := h.c0wf.erase_ok e
  unfold rebuilds at hq
  unfold DK.delEdge at hr
  rw [a1] at hq hr
  simp only [Res.ok_bind] at hr
  by_cases hl : e ∈ g.c0.live
  · simp [hl] at hq
  · simp only [hl, decide_false, Bool.false_eq_true, if_false] at hq hr
    have hfil : g.c0.live.filter (fun e' => decide (e' ≠ e)) = g.c0.live := by
      rw [List.filter_eq_self]
      intro a ha
      have : a ≠ e := fun hh => hl (hh ▸ ha)
      simpa using this
    have hedges : edgesOf { g with c0 := c' } = g.edgesOf := by simp only [edgesOf, a3, hfil]
    have hi : Inv { g with c0 := c' } := by
      refine ⟨⟨a2, by simp [a6, h.c0nv], h.len, h.val, h.maxR_lt, ?_⟩, ?_⟩
      · rw [hedges]; exact h.range
      · rw [hedges]; exact h.nodup
    have hl' : e ∉ ({ g with c0 := c' } : DK K).c0.live := by simp only [a3, hfil]; exact hl
    obtain ⟨b1, b2, b3, b4, b5, b6, b7⟩ := hi.afterErase hK he hl'
    rw [if_pos hq] at hr
    obtain ⟨d1, d2, d3, d4, d5, _⟩ := b1.rebuild hK hF S (by rw [b2]; exact hnv) hr
    rw [hedges] at b3 b4
    have hlive : ∀ gg : DK K, gg.WInv → (gg.c0.size = 0 ↔ gg.c0.live = []) := by
      intro gg hg
      rw [hg.c0wf.size_eq, List.length_eq_zero_iff]
    have hc0 : (({ g with c0 := c' } : DK K).afterErase e).2.c0.size = 0 ↔ g.c0.live = [] := by
      rw [hlive _ b1.toWInv, b6]; simp only [a3, hfil]
    refine ⟨d1, by rw [d2, b2], ?_, ?_, ?_⟩
    · intro e'; rw [d3, b3]; tauto
    · rw [d4, b4]
      by_cases h0 : g.c0.live = []
      · rw [if_pos (hc0.2 h0), if_pos h0]
      · rw [if_neg (fun hh => h0 (hc0.1 hh)), if_neg h0]
    · intro h0 hm
      have := d5 (hc0.2 h0)
      rw [b3] at this
      by_contra hne
      exact this ⟨hm, fun hh => hne hh.symm⟩

/-! ## list_neighbour -/

theorem treesNeigh_spec (hK : K.Lawful) {n x : Nat} (hx : x < n) :
    ∀ {ks : List (Option K.T)}, AllValid K n ks → (flat K ks).Nodup →
      (∀ y, y ∈ treesNeigh K x ks ↔ (x, y) ∈ flat K ks) ∧ (treesNeigh K x ks).Nodup := by
  intro ks
  induction ks with
  | nil => intro _ _; simp [treesNeigh]
  | cons o ks ih =>
    intro hv hnd
    cases o with
    | none => simpa [treesNeigh] using ih hv.tail (by simpa using hnd)
    | some t =>
      rw [flat_some, List.nodup_append] at hnd
      obtain ⟨i1, i2⟩ := ih hv.tail hnd.2.1
      have f1 := fun y => hK.neigh_iff n t x y hv.head hx
      have f2 := hK.neigh_nodup n t x hv.head hx
      simp only [treesNeigh]
      refine ⟨?_, ?_⟩
      · intro y
        rw [flat_some, List.mem_append, List.mem_append, f1, i1]
      · rw [List.nodup_append]
        refine ⟨f2, i2, ?_⟩
        intro a ha b hb hab
        subst hab
        exact hnd.2.2 _ ((f1 a).1 ha) _ ((i1 a).1 hb) rfl

/-- No tree sits above `max_r`: what `list_neighbour` silently relies on. -/
def NoneAbove (g : DK K) : Prop := ∀ i t, g.ks[i]? = some (some t) → i ≤ g.maxR

theorem take_flat {g : DK K} (h : g.NoneAbove) : flat K (g.ks.take (g.maxR + 1)) = flat K g.ks := by
  rw [flat_take_drop (g.maxR + 1) g.ks]
  have : flat K (g.ks.drop (g.maxR + 1)) = [] := by
    rw [List.eq_nil_iff_forall_not_mem]
    intro e he
    obtain ⟨t, ht, _⟩ := mem_flat.1 he
    obtain ⟨i, hi⟩ := List.getElem?_of_mem ht
    rw [List.getElem?_drop] at hi
    have := h _ _ hi
    omega
  rw [this, List.append_nil]

theorem init_noneAbove (S : Sizing) (n : Nat) : (init K S n).NoneAbove := by
  intro i t h
  simp [init, List.getElem?_replicate] at h

theorem AllValid.take {n i : Nat} {ks : List (Option K.T)} (h : AllValid K n ks) :
    AllValid K n (ks.take i) := fun t ht => h t (List.mem_of_mem_take ht)

/-- `list_neighbour` always returns; it lists exactly the successors stored in the buffer and in the
levels up to `max_r`, without repetition. -/
theorem Inv.listNeighbour_some (hK : K.Lawful) {g : DK K} (h : g.Inv) {x : Nat} (hx : x < g.nv) :
    ∃ l, g.listNeighbour x = .ok l ∧ l.Nodup ∧
      (∀ y, y ∈ l ↔ (x, y) ∈ g.c0.live ++ flat K (g.ks.take (g.maxR + 1))) := by
  unfold DK.listNeighbour
  rw [h.c0wf.listNeighbours_eq]
  simp only [Res.ok_bind]
  refine ⟨_, rfl, ?_⟩
  have hnd := h.nodup
  unfold edgesOf at hnd
  rw [flat_take_drop (g.maxR + 1), List.nodup_append, List.nodup_append] at hnd
  obtain ⟨t1, t2⟩ := treesNeigh_spec hK hx (h.val.take (i := g.maxR + 1)) hnd.2.1.1
  refine ⟨?_, ?_⟩
  · rw [List.nodup_append]
    refine ⟨by rw [List.nodup_reverse]; exact neighOf_nodup hnd.1 x, t2, ?_⟩
    intro a ha b hb hab
    subst hab
    have h1 : (x, a) ∈ g.c0.live := by
      rw [List.mem_reverse, List.mem_map] at ha
      obtain ⟨e, he, h2⟩ := ha
      rw [List.mem_filter] at he
      have : e = (x, a) := Prod.ext (by simpa using he.2) h2
      exact this ▸ he.1
    exact hnd.2.2 _ h1 _ (List.mem_append_left _ ((t1 a).1 hb)) rfl
  · intro y
    rw [List.mem_append, List.mem_append, t1, List.mem_reverse, List.mem_map]
    constructor
    · rintro (⟨e, he, h2⟩ | h1)
      · rw [List.mem_filter] at he
        have : e = (x, y) := Prod.ext (by simpa using he.2) h2
        exact Or.inl (this ▸ he.1)
      · exact Or.inr h1
    · rintro (h1 | h1)
      · exact Or.inl ⟨(x, y), by simp [h1], rfl⟩
      · exact Or.inr h1

theorem Inv.listNeighbour (hK : K.Lawful) {g : DK K} (h : g.Inv) (ha : g.NoneAbove) {x : Nat}
    (hx : x < g.nv) :
    ∃ l, g.listNeighbour x = .ok l ∧ l.Nodup ∧ (∀ y, y ∈ l ↔ (x, y) ∈ g.edgesOf) := by
  obtain ⟨l, h1, h2, h3⟩ := h.listNeighbour_some hK hx
  refine ⟨l, h1, h2, ?_⟩
  rw [take_flat ha] at h3
  exact h3

theorem treesNeighIt_eq {σ : Type} (x : Nat) (func : σ → Nat → σ) :
    ∀ (ks : List (Option K.T)) (s : σ), treesNeighIt K x func ks s = (treesNeigh K x ks).foldl func s := by
  intro ks
  induction ks with
  | nil => intro s; rfl
  | cons o ks ih =>
    intro s
    cases o with
    | none => simp [treesNeighIt, treesNeigh, ih]
    | some t => simp [treesNeighIt, treesNeigh, ih]

theorem WInv.neighIt_eq {g : DK K} (h : g.WInv) {σ : Type} (x : Nat) (func : σ → Nat → σ) (s : σ) :
    g.neighIt x func s = (g.listNeighbour x >>= fun l => .ok (l.foldl func s)) := by
  unfold DK.neighIt DK.listNeighbour
  rw [h.c0wf.neighIt_eq, h.c0wf.listNeighbours_eq]
  simp [treesNeighIt_eq]

end DK
end DK2
