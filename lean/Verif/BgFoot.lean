import Verif.Bg
/-!
# The declared accesses of the model of `DKtree_background` are complete

`Race` compares declared accesses.  Here the declarations are checked against the model: a stretch of code
changes only members it declares as written, and its result depends only on members it declares (and on the
atomic flags and `n_vertices`, which is constant).
-/

namespace DK2
namespace BG
open DK
variable {K : K2Impl}

/-- The two states agree on the member `l`. -/
def AgreeAt (s t : BG K) : BLoc → Prop
  | .c0 => s.g.c0 = t.g.c0
  | .nTotal => s.g.nTotal = t.g.nTotal
  | .levels => s.g.ks = t.g.ks
  | .maxR => s.g.maxR = t.g.maxR
  | .conv => s.conv = t.conv
  | .maxSb => s.maxSb = t.maxSb
  | .maxRb => s.maxRb = t.maxRb
  | .tmpEdge => s.tmpEdge = t.tmpEdge
  | .bks => s.bks = t.bks

/-- The two states agree on what is not a plain shared member: the flags and `n_vertices`. -/
def AgreeFlags (s t : BG K) : Prop := s.needs = t.needs ∧ s.run = t.run ∧ s.g.nv = t.g.nv

/-- `f` touches at most what `acc` declares. -/
structure Within {β : Type} (acc : Acc BLoc) (f : BG K → Res (BG K × β)) : Prop where
  writes : ∀ s s' b, f s = .ok (s', b) → ∀ l, l ∉ acc.wr → AgreeAt s' s l
  reads : ∀ s t, AgreeFlags s t → (∀ l, l ∈ acc.rd ∨ l ∈ acc.wr → AgreeAt s t l) →
    match f s, f t with
    | .ok (s', b), .ok (t', b') => b = b' ∧ AgreeFlags s' t' ∧ ∀ l, l ∈ acc.wr → AgreeAt s' t' l
    | .throws, .throws => True
    | .ub, .ub => True
    | .abort, .abort => True
    | .diverge, .diverge => True
    | _, _ => False

/-- Every stretch of the program touches at most what it declares; waits look only at the flags. -/
def Footed {α : Type} : BProg K α → Prop
  | .ret _ => True
  | .act acc f k => Within acc f ∧ ∀ b, Footed (k b)
  | .wait c k => (∀ s t, AgreeFlags s t → c s = c t) ∧ Footed k

theorem Footed.bind {α β : Type} {p : BProg K α} {f : α → BProg K β} (hp : Footed p) (hf : ∀ a, Footed (f a)) :
    Footed (p.bind f) := by
  induction p with
  | ret a => exact hf a
  | act acc g k ih => exact ⟨hp.1, fun b => ih b (hp.2 b)⟩
  | wait c k ih => exact ⟨hp.1, ih hp.2⟩

/-- A read of a value that depends only on the declared members. -/
theorem Footed.read {β : Type} {acc : Acc BLoc} {f : BG K → Res β}
    (h : ∀ s t, AgreeFlags s t → (∀ l, l ∈ acc.rd ∨ l ∈ acc.wr → AgreeAt s t l) → f s = f t) :
    Footed (Prog.read acc f : BProg K β) := by
  refine ⟨⟨?_, ?_⟩, fun _ => trivial⟩
  · intro s s' b hs l _
    rw [Res.bind_eq_ok] at hs
    obtain ⟨_, _, h2⟩ := hs
    cases h2
    cases l <;> rfl
  · intro s t hf hl
    have := h s t hf hl
    simp only [this]
    cases f t with
    | ok b => exact ⟨rfl, hf, fun l hl' => hl l (Or.inr hl')⟩
    | _ => trivial

theorem readNeeds_foot : Footed (readNeeds : BProg K Bool) :=
  Footed.read (fun s t h _ => by rw [h.1])

theorem contains_foot (e : Edge) : Footed (contains e : BProg K Bool) := by
  refine Footed.bind (Footed.read fun s t _ h => ?_) (fun b => ?_)
  · have : s.g.c0 = t.g.c0 := h .c0 (by simp)
    rw [this]
  · cases b with
    | true => exact trivial
    | false =>
      refine Footed.bind readNeeds_foot (fun nd => ?_)
      cases nd with
      | true =>
        refine Footed.read fun s t _ h => ?_
        have h1 : s.tmpEdge = t.tmpEdge := h .tmpEdge (by simp)
        have h2 : s.bks = t.bks := h .bks (by simp)
        have h3 : s.maxRb = t.maxRb := h .maxRb (by simp)
        simp only [snapContains, h1, h2, h3]
      | false =>
        refine Footed.read fun s t _ h => ?_
        have h1 : s.g.ks = t.g.ks := h .levels (by simp)
        have h2 : s.g.maxR = t.g.maxR := h .maxR (by simp)
        rw [h1, h2]

theorem listNeighbour_foot (x : Nat) : Footed (listNeighbour x : BProg K (List Nat)) := by
  refine Footed.bind (Footed.read fun s t _ h => ?_) (fun l => Footed.bind readNeeds_foot (fun nd => ?_))
  · have : s.g.c0 = t.g.c0 := h .c0 (by simp)
    rw [this]
  · cases nd with
    | true =>
      refine Footed.bind (Footed.read fun s t _ h => ?_) (fun _ => trivial)
      have h1 : s.tmpEdge = t.tmpEdge := h .tmpEdge (by simp)
      have h2 : s.bks = t.bks := h .bks (by simp)
      have h3 : s.g.maxR = t.g.maxR := h .maxR (by simp)
      simp only [snapNeigh, h1, h2, h3]
    | false =>
      refine Footed.bind (Footed.read fun s t _ h => ?_) (fun _ => trivial)
      have h1 : s.g.ks = t.g.ks := h .levels (by simp)
      have h2 : s.g.maxR = t.g.maxR := h .maxR (by simp)
      rw [h1, h2]

/-- A modification that touches only the buffer and the counter. -/
theorem insert_within (S : Sizing) (e : Edge) :
    Within ⟨[.c0, .nTotal], [.c0, .nTotal]⟩ (fun s : BG K => insert S e s >>= fun s' => .ok (s', ())) := by
  constructor
  · intro s s' b hs l hl
    unfold insert at hs
    simp only [Res.bind_eq_ok] at hs
    obtain ⟨_, ⟨c, _, h2⟩, h3⟩ := hs
    cases h2; cases h3
    cases l <;> first | rfl | simp at hl
  · intro s t hf h
    have h1 : s.g.c0 = t.g.c0 := h .c0 (by simp)
    have h2 : s.g.nTotal = t.g.nTotal := h .nTotal (by simp)
    unfold insert
    rw [h1, h2]
    cases t.g.c0.insert S e t.g.nTotal with
    | ok c =>
      refine ⟨rfl, hf, ?_⟩
      intro l hl
      simp at hl
      rcases hl with rfl | rfl <;> rfl
    | _ => trivial

theorem insertPending_within (S : Sizing) (e : Edge) :
    Within ⟨[.c0, .nTotal], [.c0, .nTotal]⟩ (fun s : BG K => insertPending S e s >>= fun s' => .ok (s', ())) := by
  obtain ⟨w, r⟩ := insert_within (K := K) S e
  constructor
  · intro s s' b hs l hl
    have := w _ s' b hs l hl
    cases l <;> first | exact this | simp at hl
  · intro s t hf h
    have h1 : s.g.c0 = t.g.c0 := h .c0 (by simp)
    have h2 : s.g.nTotal = t.g.nTotal := h .nTotal (by simp)
    refine r _ _ hf ?_
    intro l hl
    simp at hl
    rcases hl with rfl | rfl
    · simp only [AgreeAt, h1]
    · exact h2

theorem eraseBuf_within (e : Edge) :
    Within ⟨[.c0, .nTotal], [.c0, .nTotal]⟩ (eraseBuf e : BG K → Res (BG K × Bool)) := by
  constructor
  · intro s s' b hs l hl
    unfold eraseBuf at hs
    rw [Res.bind_eq_ok] at hs
    obtain ⟨r, _, h2⟩ := hs
    cases h2
    cases l <;> first | rfl | simp at hl
  · intro s t hf h
    have h1 : s.g.c0 = t.g.c0 := h .c0 (by simp)
    have h2 : s.g.nTotal = t.g.nTotal := h .nTotal (by simp)
    unfold eraseBuf
    rw [h1, h2]
    cases t.g.c0.erase e with
    | ok c =>
      refine ⟨rfl, hf, ?_⟩
      intro l hl
      simp at hl
      rcases hl with rfl | rfl <;> rfl
    | _ => trivial

theorem prepare_within (e : Edge) :
    Within ⟨[.c0, .levels, .maxR, .nTotal], [.conv, .maxSb, .maxRb, .tmpEdge, .bks]⟩
      (fun s : BG K => prepare e s >>= fun s' => .ok (s', ())) := by
  constructor
  · intro s s' b hs l hl
    unfold prepare at hs
    simp only [Res.bind_eq_ok] at hs
    obtain ⟨_, ⟨c, _, h2⟩, h3⟩ := hs
    cases h2; cases h3
    cases l <;> first | rfl | simp at hl
  · intro s t hf h
    have h1 : s.g.c0 = t.g.c0 := h .c0 (by simp)
    have h2 : s.g.nTotal = t.g.nTotal := h .nTotal (by simp)
    have h3 : s.g.ks = t.g.ks := h .levels (by simp)
    have h4 : s.g.maxR = t.g.maxR := h .maxR (by simp)
    have h5 : s.conv = t.conv := h .conv (by simp)
    unfold prepare
    rw [h1, h2, h3, h4, h5, hf.2.2]
    cases t.g.c0.converted with
    | ok c =>
      refine ⟨rfl, hf, ?_⟩
      intro l hl
      simp at hl
      rcases hl with rfl | rfl | rfl | rfl | rfl <;> rfl
    | _ => trivial

theorem cleanup_within :
    Within ⟨[.c0, .nTotal], [.c0, .nTotal]⟩ (fun s : BG K => cleanup s >>= fun s' => .ok (s', ())) := by
  constructor
  · intro s s' b hs l hl
    unfold cleanup at hs
    simp only [Res.bind_eq_ok] at hs
    obtain ⟨_, ⟨c, _, h2⟩, h3⟩ := hs
    cases h2; cases h3
    cases l <;> first | rfl | simp at hl
  · intro s t hf h
    have h1 : s.g.c0 = t.g.c0 := h .c0 (by simp)
    have h2 : s.g.nTotal = t.g.nTotal := h .nTotal (by simp)
    unfold cleanup
    rw [h1, h2]
    cases t.g.c0.clean with
    | ok c =>
      refine ⟨rfl, hf, ?_⟩
      intro l hl
      simp at hl
      rcases hl with rfl | rfl <;> rfl
    | _ => trivial

theorem eraseLevels_within (S : Sizing) (e : Edge) :
    Within ⟨[.levels, .maxR, .nTotal, .c0], [.levels, .maxR, .nTotal]⟩
      (eraseLevels S e : BG K → Res (BG K × List Edge)) := by
  constructor
  · intro s s' b hs l hl
    unfold eraseLevels at hs
    dsimp only at hs
    split at hs
    · cases hs; cases l <;> first | rfl | simp at hl
    · cases hs; cases l <;> first | rfl | simp at hl
  · intro s t hf h
    have h1 : s.g.c0 = t.g.c0 := h .c0 (by simp)
    have h2 : s.g.nTotal = t.g.nTotal := h .nTotal (by simp)
    have h3 : s.g.ks = t.g.ks := h .levels (by simp)
    have h4 : s.g.maxR = t.g.maxR := h .maxR (by simp)
    have hg : s.g = t.g := by
      obtain ⟨⟨a1, a2, a3, a4, a5⟩, _⟩ := s
      obtain ⟨⟨b1, b2, b3, b4, b5⟩, _⟩ := t
      obtain ⟨_, _, h5⟩ := hf
      simp only at h1 h2 h3 h4 h5
      simp [h1, h2, h3, h4, h5]
    unfold eraseLevels
    rw [hg]
    dsimp only
    by_cases hr : S.rebuild (DKD.afterErase t.g e).1 (DKD.afterErase t.g e).2.nTotal = true
    · simp only [hr, if_true]
      refine ⟨trivial, ⟨hf.1, hf.2.1, rfl⟩, ?_⟩
      intro l hl
      simp at hl
      rcases hl with rfl | rfl | rfl <;> rfl
    · simp only [hr, if_false, Bool.false_eq_true]
      refine ⟨trivial, ⟨hf.1, hf.2.1, rfl⟩, ?_⟩
      intro l hl
      simp at hl
      rcases hl with rfl | rfl | rfl <;> rfl

theorem flush_foot (e : Edge) : Footed (flush e : BProg K Unit) := by
  refine Footed.bind (p := Prog.modify _ _) ⟨prepare_within e, fun _ => trivial⟩ (fun _ => ?_)
  refine Footed.bind (p := Prog.modify _ _) ⟨?_, fun _ => trivial⟩ (fun _ => ?_)
  · constructor
    · intro s s' b hs l _
      simp only [Res.ok_bind] at hs
      cases hs
      cases l <;> rfl
    · intro s t hf _
      exact ⟨rfl, ⟨rfl, hf.2⟩, fun l hl => by simp [Acc.none] at hl⟩
  · exact ⟨cleanup_within, fun _ => trivial⟩

theorem addEdge_foot (wv : Bool) (S : Sizing) (e : Edge) : Footed (addEdge wv S e : BProg K Unit) := by
  refine Footed.bind (contains_foot e) (fun b => ?_)
  cases b with
  | true => exact trivial
  | false =>
    refine Footed.bind (Footed.read fun s t hf h => ?_) (fun f => ?_)
    · have h1 : s.g.c0 = t.g.c0 := h .c0 (by simp)
      have h2 : s.g.nTotal = t.g.nTotal := h .nTotal (by simp)
      simp only [fits, h1, h2, hf.2.2]
    · cases f with
      | true => exact ⟨insert_within S e, fun _ => trivial⟩
      | false =>
        cases wv with
        | true => exact ⟨fun s t h => by simp only [h.1], flush_foot e⟩
        | false =>
          refine Footed.bind readNeeds_foot (fun nd => ?_)
          cases nd with
          | true => exact ⟨insertPending_within S e, fun _ => trivial⟩
          | false => exact flush_foot e

theorem addAll_foot (wv : Bool) (S : Sizing) (es : List Edge) : Footed (addAll wv S es : BProg K Unit) := by
  induction es with
  | nil => exact trivial
  | cons e es ih => exact Footed.bind (addEdge_foot wv S e) (fun _ => ih)

/-- Every user call declares everything it touches. -/
theorem call_foot (wv : Bool) (S : Sizing) (o : Op) : Footed (call wv S o : BProg K Unit) := by
  cases o with
  | add e => exact addEdge_foot wv S e
  | del e =>
    refine Footed.bind (p := Prog.act _ _ _) ⟨eraseBuf_within e, fun _ => trivial⟩ (fun b => ?_)
    cases b with
    | true => exact trivial
    | false =>
      refine ⟨fun s t h => by simp only [h.1], ?_⟩
      exact Footed.bind (p := Prog.act _ _ _) ⟨eraseLevels_within S e, fun _ => trivial⟩ (fun es => addAll_foot wv S es)

/-- The worker declares everything it touches. -/
theorem worker_foot (S : Sizing) (w : WPC K.T) : Within (wacc w) (fun s => wstep S s w) := by
  constructor
  · intro s s' b hs l hl
    cases w with
    | top => simp only [wstep] at hs; cases hs; cases l <;> rfl
    | test => simp only [wstep] at hs; cases hs; cases l <;> rfl
    | build => simp only [wstep] at hs; cases hs; cases l <;> first | rfl | simp [wacc] at hl
    | search t =>
      simp only [wstep] at hs
      split at hs
      · cases hs
      · cases hs; cases l <;> first | rfl | simp [wacc] at hl
    | merge t i j =>
      simp only [wstep] at hs
      split at hs
      · split at hs
        · cases hs
        · cases hs; cases l <;> rfl
        · cases hs; cases l <;> first | rfl | simp [wacc] at hl
      · cases hs; cases l <;> rfl
    | store t i =>
      simp only [wstep] at hs
      rw [Res.bind_eq_ok] at hs
      obtain ⟨ks, _, hs⟩ := hs
      cases hs; cases l <;> first | rfl | simp [wacc] at hl
    | finish => simp only [wstep] at hs; cases hs; cases l <;> rfl
    | stopped => simp only [wstep] at hs; cases hs; cases l <;> rfl
  · intro s t hf h
    cases w with
    | top =>
      simp only [wstep]
      exact ⟨by rw [hf.2.1], hf, fun l hl => by simp [wacc, Acc.none] at hl⟩
    | test =>
      simp only [wstep]
      exact ⟨by rw [hf.1], hf, fun l hl => by simp [wacc, Acc.none] at hl⟩
    | build =>
      have h1 : s.conv = t.conv := h .conv (by simp [wacc])
      simp only [wstep]
      refine ⟨by rw [h1, hf.2.2], hf, ?_⟩
      intro l hl
      simp [wacc] at hl
      subst hl; rfl
    | search tmp =>
      have h1 : s.maxSb = t.maxSb := h .maxSb (by simp [wacc])
      have h2 : s.g.ks = t.g.ks := h .levels (by simp [wacc])
      have h3 : s.g.maxR = t.g.maxR := h .maxR (by simp [wacc])
      simp only [wstep]
      rw [h1, h2, h3]
      cases selectLevel K S t.maxSb t.g.ks 0 (S.maxsz t.maxSb 0) with
      | none => trivial
      | some i =>
        refine ⟨rfl, hf, ?_⟩
        intro l hl
        simp [wacc] at hl
        subst hl; rfl
    | merge tmp i j =>
      have h2 : s.g.ks = t.g.ks := h .levels (by simp [wacc])
      simp only [wstep]
      rw [h2]
      by_cases hij : j ≤ i
      · simp only [hij, if_true]
        cases t.g.ks[j]? with
        | none => trivial
        | some o =>
          cases o with
          | none => exact ⟨rfl, hf, fun l hl => by simp [wacc] at hl; subst hl; exact h2⟩
          | some u =>
            refine ⟨rfl, hf, ?_⟩
            intro l hl
            simp [wacc] at hl
            subst hl; rfl
      · simp only [hij, if_false]
        exact ⟨trivial, hf, fun l hl => by simp [wacc] at hl; subst hl; exact h2⟩
    | store tmp i =>
      have h2 : s.g.ks = t.g.ks := h .levels (by simp [wacc])
      simp only [wstep]
      rw [h2]
      cases wr t.g.ks i (some tmp) with
      | ok ks =>
        refine ⟨rfl, hf, ?_⟩
        intro l hl
        simp [wacc] at hl
        subst hl; rfl
      | _ => trivial
    | finish =>
      simp only [wstep]
      exact ⟨trivial, ⟨rfl, hf.2⟩, fun l hl => by simp [wacc, Acc.none] at hl⟩
    | stopped =>
      simp only [wstep]
      exact ⟨trivial, hf, fun l hl => by simp [wacc, Acc.none] at hl⟩

end BG
end DK2
