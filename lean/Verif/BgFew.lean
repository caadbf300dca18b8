import Verif.BgLive
import Verif.WinSpec
import Verif.Calib
/-!
# `DKtree_background_wait` with rare deletions

What `add_edge` does to the buffer, and `del_edge` while few edges are erased.
-/

namespace DK2
namespace BG
open DK
variable {K : K2Impl}

/-! ## The buffer -/

/-- The worker, with no access recorded: the buffer is used by the caller only. -/
def quietWorker (K : K2Impl) (S : Sizing) : Worker (BG K) (WPC K.T) BLoc := ⟨wstep S, fun _ => .none⟩

theorem no_conflict_quiet {a : Acc BLoc} {S : Sizing} {w : WPC K.T} : ¬ a.Conflict ((quietWorker K S).acc w) := by
  rintro (⟨l, _, h | h⟩ | ⟨l, _, h⟩) <;> cases h

theorem Exec.quiet {α : Type} {S : Sizing} {p p' : BProg K α} {s s' : BG K} {w w' : WPC K.T}
    (h : Exec (worker K S) p s w p' s' w') : Exec (quietWorker K S) p s w p' s' w' := by
  induction h with
  | start => exact .start
  | caller _ hs ih => exact .caller ih hs
  | worker _ hs ih => exact .worker ih hs

/-- The buffer holds `L`, the counter is `N`. -/
def Buf (L : List Edge) (N n : Nat) (s : BG K) : Prop :=
  s.g.c0.WF ∧ s.g.c0.live = L ∧ s.g.nTotal = N ∧ s.g.nv = n

theorem Buf.step {S : Sizing} {L : List Edge} {N n : Nat} {s s' : BG K} {w w' : WPC K.T} (h : Buf L N n s)
    (hs : wstep S s w = .ok (s', w')) : Buf L N n s' := by
  obtain ⟨f1, f2, f3, _⟩ := wstep_frame hs
  unfold Buf
  rw [f1, f2, f3]
  exact h

/-- Triples about the buffer. -/
abbrev BOk {α : Type} (S : Sizing) (p : BProg K α) (P : BG K → WPC K.T → Prop) (Q : α → BG K → WPC K.T → Prop) : Prop :=
  Ok (quietWorker K S) (fun _ _ => True) False p P Q

section
variable (S : Sizing) {L : List Edge} {N n : Nat}

theorem buf_stable (φ : Prop) : Stable (quietWorker K S) (fun s _ => Buf L N n s ∧ φ) :=
  fun _ _ _ _ h hs => ⟨h.1.step hs, h.2⟩

theorem buf_read {β : Type} {acc : Acc BLoc} {f : BG K → Res β} {φ : Prop} {ψ : β → Prop}
    (h : ∀ s b, Buf L N n s → φ → f s = .ok b → ψ b) :
    BOk S (Prog.read acc f) (fun s _ => Buf L N n s ∧ φ) (fun b s _ => Buf L N n s ∧ ψ b) :=
  Ok.read _ (buf_stable S φ) (fun _ _ _ => no_conflict_quiet) (fun h => h.elim)
    (fun s _ b hp hf => ⟨hp.1, h s b hp.1 hp.2 hf⟩) (fun b => buf_stable S (ψ b)) (fun _ _ _ => trivial) (fun _ _ _ _ => trivial)

theorem contains_buf (e : Edge) :
    BOk S (contains e : BProg K Bool) (fun s _ => Buf L N n s ∧ True) (fun b s _ => Buf L N n s ∧ (b = false → e ∉ L)) := by
  refine Ok.bind _ (R := fun b s _ => Buf L N n s ∧ (b = false → e ∉ L)) (buf_read S ?_) ?_
  · intro s b h _ hf hb
    rw [h.1.contains_eq] at hf
    have hf := Res.ok.inj hf
    rw [hb, h.2.1] at hf
    simpa using hf
  · intro b
    cases b with
    | true => exact Ok.ret _ (buf_stable S _) (fun _ _ h => ⟨h.1, fun hh => by cases hh⟩) (fun _ _ _ => trivial)
    | false =>
      rw [if_neg Bool.false_ne_true]
      refine Ok.bind _ (R := fun _ s _ => Buf L N n s ∧ (false = false → e ∉ L)) (buf_read S (fun _ _ _ h _ => h)) ?_
      intro nd
      cases nd <;> exact buf_read S (fun _ _ _ h _ _ => h rfl)

/-- What `add_edge(e)` makes of the buffer. -/
def BufPost (S : Sizing) (L : List Edge) (N n : Nat) (e : Edge) (s : BG K) : Prop :=
  (s.g.c0.live = L ∧ s.g.nTotal = N) ∨ s.g.c0.live = [] ∨ (s.g.c0.live = L ++ [e] ∧ L.length < S.maxsz (max n N) 0)

theorem bufPost_stable (e : Edge) : Stable (quietWorker K S) (fun s _ => BufPost S L N n e s) := by
  intro s w s' w' h hs
  obtain ⟨f1, f2, _⟩ := wstep_frame hs
  unfold BufPost
  rw [f1, f2]
  exact h

theorem modify_buf {acc : Acc BLoc} {f : BG K → Res (BG K)} {φ : Prop} {Q : BG K → Prop}
    (hQ : Stable (quietWorker K S) (fun s _ => Q s)) (h : ∀ s s', Buf L N n s → φ → f s = .ok s' → Q s') :
    BOk S (Prog.modify acc f) (fun s _ => Buf L N n s ∧ φ) (fun _ s _ => Q s) :=
  Ok.modify _ (buf_stable S φ) (fun _ _ _ => no_conflict_quiet) (fun h => h.elim)
    (fun s _ s' hp hf => h s s' hp.1 hp.2 hf) hQ (fun _ _ _ => trivial) (fun _ _ _ => trivial)

theorem flush_buf (e : Edge) :
    BOk S (flush e : BProg K Unit) (fun s _ => Buf L N n s ∧ True) (fun _ s _ => BufPost S L N n e s) := by
  refine Ok.bind _ (R := fun _ s _ => Buf L N n s ∧ True) (modify_buf S (buf_stable S True) ?_)
    (fun _ => Ok.bind _ (R := fun _ s _ => Buf L N n s ∧ True) (modify_buf S (buf_stable S True) ?_)
      (fun _ => modify_buf S (bufPost_stable S e) ?_))
  · intro s s' h _ hf
    unfold prepare at hf
    rw [h.1.converted_eq] at hf
    cases hf
    exact ⟨h, trivial⟩
  · intro s s' h _ hf
    cases hf
    exact ⟨h, trivial⟩
  · intro s s' h _ hf
    obtain ⟨b, a1, a2, a3, _⟩ := h.1.clean_ok
    unfold cleanup at hf
    rw [a1] at hf
    cases hf
    exact Or.inr (Or.inl a3)

/-- `add_edge(e)` of `DKtree_background_wait`. -/
theorem addEdge_buf (e : Edge) :
    BOk S (addEdge true S e : BProg K Unit) (fun s _ => Buf L N n s ∧ True) (fun _ s _ => BufPost S L N n e s) := by
  refine Ok.bind _ (contains_buf S e) ?_
  intro b
  cases b with
  | true => exact Ok.ret _ (buf_stable S _) (fun _ _ h => Or.inl ⟨h.1.2.1, h.1.2.2.1⟩) (fun _ _ _ => trivial)
  | false =>
    rw [if_neg Bool.false_ne_true]
    refine Ok.bind _ (R := fun f s _ => Buf L N n s ∧ (e ∉ L ∧ (f = true → L.length < S.maxsz (max n N) 0))) ?_ ?_
    · refine buf_read S ?_
      intro s f h hl hf
      cases hf
      refine ⟨hl rfl, fun hf => ?_⟩
      simp only [fits, decide_eq_true_eq] at hf
      rw [h.1.size_eq, h.2.1, h.2.2.1, h.2.2.2] at hf
      exact hf
    · intro f
      cases f with
      | true =>
        rw [if_pos rfl]
        refine modify_buf S (bufPost_stable S e) ?_
        intro s s' h hl hf
        unfold BG.insert at hf
        rw [Res.bind_eq_ok] at hf
        obtain ⟨b, hb, hf⟩ := hf
        cases hf
        have hl' : e ∉ s.g.c0.live := by rw [h.2.1]; exact hl.1
        by_cases hr : s.g.c0.room S s.g.nTotal
        · obtain ⟨c', a1, a2, a3, _⟩ := C0.insert_absent h.1 hl' hr
          rw [a1] at hb; cases hb
          exact Or.inr (Or.inr ⟨by rw [← h.2.1]; exact a3, hl.2 rfl⟩)
        · rw [C0.insert_noroom h.1 hl' hr] at hb; cases hb
      | false =>
        rw [if_neg Bool.false_ne_true]
        unfold addFull
        rw [if_pos rfl]
        exact Ok.wait _ (buf_stable S _) (fun _ _ h _ => ⟨h.1, trivial⟩) (flush_buf S e) (fun _ _ _ => trivial)

end

/-! ## del_edge -/

/-- Giving up the part of the invariant about few deletions. -/
theorem J.down {S : Sizing} {c : JC} {lv cv : List Edge} {x : Nat} {s : BG K} {w : WPC K.T} (h : J S c lv cv x s w) :
    J S { c with tot := False } lv cv x s w :=
  J.congr h rfl (fun _ => Iff.rfl) (fun _ h => h) h.vis False.elim

/-- And establishing it. -/
theorem J.up {S : Sizing} {c : JC} {lv cv : List Edge} {x : Nat} {s : BG K} {w : WPC K.T} (h : J S c lv cv x s w)
    (hD : ∀ e, ¬ c.D e) {k : Nat} {cm : Prop} (ht : Tot S { c with tot := True, k := k, cm := cm } s w) :
    J S { c with tot := True, k := k, cm := cm } lv cv x s w :=
  ⟨h.c0wf, h.c0nv, h.nv, h.run, h.len, h.val, h.above, h.maxR, h.rangeC, h.stage, h.cvn, h.mem, h.one, h.num,
    fun _ => (h.num hD).le, fun hn => ⟨(h.snap hn).val, (h.snap hn).above, (h.snap hn).sub, (h.snap hn).le⟩, h.vis, fun _ => ht⟩

/-- Before `del_edge(e)`: the counter is `N`, and if `B` the buffer is `L`. -/
def FewPre (S : Sizing) (c : JC) (N : Nat) (L : List Edge) (B : Prop) (s : BG K) (w : WPC K.T) : Prop :=
  JJ S c s w ∧ s.g.nTotal = N ∧ (B → s.g.c0.live = L)

/-- After `del_edge(e)`. -/
def FewPost (S : Sizing) (c : JC) (e : Edge) (L : List Edge) (B : Prop) (s : BG K) (w : WPC K.T) : Prop :=
  ∃ c' : JC, JJ S c' s w ∧ c'.n = c.n ∧ c'.tot ∧ (∀ e, ¬ c'.D e) ∧ (∀ e', c'.G e' ↔ c.G e' ∧ e' ≠ e) ∧
    c'.k ≤ c.k + 1 ∧ (¬ c.G e → c'.k = c.k) ∧ (B → c'.cm ∧ s.g.c0.live = L)

section
variable (hK : K.Lawful) (S : Sizing)
include hK

theorem FewPre_stable (c : JC) (N : Nat) (L : List Edge) (B φ : Prop) :
    Stable (worker K S) (fun s w => FewPre (K := K) S c N L B s w ∧ φ) := by
  rintro s w s' w' ⟨⟨h, h1, h2⟩, h3⟩ hw
  obtain ⟨f1, f2, _⟩ := wstep_frame hw
  exact ⟨⟨JJ_stable hK S _ _ _ _ _ h hw, by rw [f2]; exact h1, by rw [f1]; exact h2⟩, h3⟩

theorem FewPost_stable (c : JC) (e : Edge) (L : List Edge) (B : Prop) :
    Stable (worker K S) (FewPost (K := K) S c e L B) := by
  rintro s w s' w' ⟨c', h, h1, h2, h3, h4, h5, h6, h7⟩ hw
  obtain ⟨f1, _⟩ := wstep_frame hw
  exact ⟨c', JJ_stable hK S _ _ _ _ _ h hw, h1, h2, h3, h4, h5, h6, by rw [f1]; exact h7⟩

omit hK in
theorem FewPre.eraseBuf {c : JC} (ht : c.tot) (hD : ∀ e, ¬ c.D e) {N : Nat} {L : List Edge} {B : Prop} {e : Edge}
    (hB : B → c.cm ∧ e ∉ L) (hN : c.G e → 6 * (c.k + 1) + 1 ≤ N) {s s' : BG K} {w : WPC K.T} {b : Bool}
    (h : FewPre S c N L B s w) (hs : BG.eraseBuf e s = .ok (s', b)) :
    (b = true → FewPost S c e L B s' w) ∧ (b = false → FewPre S c N L B s' w ∧ e ∉ s'.g.c0.live) := by
  obtain ⟨h, h1, h2⟩ := h
  have hd : JJ S { c with tot := False } s w := h.down
  by_cases hm : e ∈ s.g.c0.live
  · obtain ⟨p1, _⟩ := hd.eraseBuf id hs
    have hG : c.G e := (h.mem e).2 (List.mem_append_left _ hm)
    have t := h.tot ht
    obtain ⟨c', a1, a2, a3, a4, a5, a6⟩ := h.c0wf.erase_ok e
    unfold BG.eraseBuf at hs
    rw [a1] at hs
    simp only [hm, decide_true, Res.ok_bind, if_true] at hs
    cases hs
    refine ⟨fun _ => ?_, fun hh => by cases hh⟩
    obtain ⟨i, q1, q2, q3⟩ := p1 rfl
    refine ⟨{ c with G := i.1, V := i.2, tot := True, k := c.k, cm := False }, ?_, rfl, trivial, hD, ?_, ?_, fun _ => rfl, ?_⟩
    · refine J.up q1 hD ⟨t.two, ?_, False.elim, t.trees, t.tmp, t.room⟩
      show 6 * c.k ≤ decr s.g.nTotal
      have := hN hG
      unfold decr
      rw [h1, if_neg (by omega)]
      omega
    · intro e'
      by_cases hee : e' = e
      · subst hee
        exact ⟨fun hh => absurd (q3 hh).2 (hD e'), fun hh => absurd rfl hh.2⟩
      · exact ⟨fun hh => ⟨(q2 e' hee).1 hh, hee⟩, fun hh => (q2 e' hee).2 hh.1⟩
    · show c.k ≤ c.k + 1
      omega
    · intro hb
      exact absurd (h2 hb ▸ hm) (hB hb).2
  · unfold BG.eraseBuf at hs
    rw [h.c0wf.erase_absent hm] at hs
    simp only [Res.ok_bind] at hs
    cases hs
    exact ⟨fun hh => (by cases hh), fun _ => ⟨⟨h, h1, h2⟩, hm⟩⟩

theorem FewPre.eraseLevels (hM : K.MarksOne) {X : Nat} (hS : S.Calibrated X) {c : JC} (ht : c.tot) (hD : ∀ e, ¬ c.D e)
    {N : Nat} {L : List Edge} {B : Prop} {e : Edge} (he : InRange c.n e) (hB : B → c.cm)
    (hN : c.G e → 6 * (c.k + 1) + 1 ≤ N) (hX : N ≤ X) {s s' : BG K} {w : WPC K.T} {es : List Edge}
    (h : FewPre S c N L B s w) (hl : e ∉ s.g.c0.live) (hn : s.needs = false)
    (hs : BG.eraseLevels S e s = .ok (s', es)) : es = [] ∧ FewPost S c e L B s' w := by
  obtain ⟨h, h1, h2⟩ := h
  have hd : JJ S { c with tot := False } s w := h.down
  obtain ⟨G, ⟨V, q1⟩, _, q2, q3⟩ := hd.eraseLevels hK id hn he hl hs
  have t := h.tot ht
  obtain ⟨hw, hpd, _⟩ := h.stage.idle hn
  obtain ⟨m1, m2⟩ := DKD.eraseFirst_marks hM he h.val
  obtain ⟨_, _, _, _, _, _, i7⟩ := eraseFirst_count hK he h.val
  have hfound : (DKD.eraseFirst K e s.g.ks).1 = true ↔ c.G e := by
    rw [i7, h.mem e, stored, hpd, List.nil_append, List.mem_append]
    exact ⟨Or.inr, fun hh => hh.resolve_left hl⟩
  have htr := t.trees
  have hra := t.rare
  rw [h1] at hra
  obtain ⟨k', hk1, hk2, hk3, hk4, hk5, hk6⟩ : ∃ k', k' ≤ c.k + 1 ∧ (¬ c.G e → k' = c.k) ∧
      (DKD.eraseFirst K e s.g.ks).2.1 ≤ k' ∧ marks K (DKD.eraseFirst K e s.g.ks).2.2 ≤ k' ∧
      6 * k' ≤ (if (DKD.eraseFirst K e s.g.ks).1 then decr s.g.nTotal else s.g.nTotal) ∧
      (if (DKD.eraseFirst K e s.g.ks).1 then decr s.g.nTotal else s.g.nTotal) ≤ X := by
    by_cases hg : c.G e
    · have hf := hfound.2 hg
      rw [hf, if_pos rfl] at m1 m2
      have := hN hg
      refine ⟨c.k + 1, by omega, fun hh => absurd hg hh, by omega, by omega, ?_, ?_⟩
      · rw [if_pos hf]; unfold decr; rw [h1, if_neg (by omega)]; omega
      · rw [if_pos hf]; unfold decr; rw [h1, if_neg (by omega)]; omega
    · have hf : (DKD.eraseFirst K e s.g.ks).1 = false := by
        cases hh : (DKD.eraseFirst K e s.g.ks).1 with
        | false => rfl
        | true => exact absurd (hfound.1 hh) hg
      rw [hf, if_neg Bool.false_ne_true] at m1 m2
      refine ⟨c.k, by omega, fun _ => rfl, by omega, by omega, ?_, ?_⟩
      · rw [hf, if_neg Bool.false_ne_true, h1]; exact hra
      · rw [hf, if_neg Bool.false_ne_true, h1]; exact hX
  have hreb : S.rebuild (DKD.afterErase s.g e).1 (DKD.afterErase s.g e).2.nTotal = false := by
    refine hS.rare ?_ hk6
    show 6 * (DKD.eraseFirst K e s.g.ks).2.1 ≤ _
    exact le_trans (by omega) hk5
  unfold BG.eraseLevels at hs
  dsimp only at hs
  rw [hreb, if_neg Bool.false_ne_true] at hs
  cases hs
  refine ⟨rfl, { c with G := G, V := V, tot := True, k := k', cm := c.cm }, ?_, rfl, trivial, hD, ?_, hk1, hk2, ?_⟩
  · refine J.up q1 hD ⟨t.two, hk5, t.c0m, hk4, ?_, fun hh => ?_⟩
    · rcases hw with rfl | rfl <;> trivial
    · rw [show s.needs = true from hh] at hn; cases hn
  · intro e'
    by_cases hee : e' = e
    · subst hee
      exact ⟨fun hh => absurd (q3 (Or.inl hh)).2 (hD e'), fun hh => absurd rfl hh.2⟩
    · have := q2 e' hee
      simp only [List.not_mem_nil, or_false] at this
      exact ⟨fun hh => ⟨this.1 hh, hee⟩, fun hh => this.2 hh.1⟩
  · exact fun hb => ⟨hB hb, h2 hb⟩

theorem delEdge_few_ok (hM : K.MarksOne) {X : Nat} (hS : S.Calibrated X) (wv : Bool) {c : JC} (ht : c.tot)
    (hD : ∀ e, ¬ c.D e) {N : Nat} {L : List Edge} {B : Prop} {e : Edge} (he : InRange c.n e) (hB : B → c.cm ∧ e ∉ L)
    (hN : c.G e → 6 * (c.k + 1) + 1 ≤ N) (hX : N ≤ X) :
    Ok (worker K S) (good S True) True (delEdge wv S e) (FewPre S c N L B) (fun _ s w => FewPost S c e L B s w) := by
  have hst0 := FewPre_stable hK S c N L B True
  have hst : Stable (worker K S) (FewPre (K := K) S c N L B) := fun s w s' w' h hw => (hst0 s w s' w' ⟨h, trivial⟩ hw).1
  have hgp : ∀ s w, FewPre (K := K) S c N L B s w → good S True s w := fun s w h => good_intro h.1 (fun _ => ht)
  have hgq : ∀ s w, FewPost (K := K) S c e L B s w → good S True s w := fun s w ⟨c', h, _, h2, _⟩ => good_intro h (fun _ => h2)
  have hstl : Stable (worker K S) (fun s w => FewPre (K := K) S c N L B s w ∧ e ∉ s.g.c0.live) := by
    rintro s w s' w' ⟨h, h1⟩ hw
    exact ⟨hst _ _ _ _ h hw, by rw [(wstep_frame hw).1]; exact h1⟩
  refine Ok.bind (R := fun b s w => (b = true → FewPost S c e L B s w) ∧
    (b = false → FewPre S c N L B s w ∧ e ∉ s.g.c0.live)) _ ?_ ?_
  · refine Ok.act _ hst (fun _ w _ => no_conflict_private (by simp) w) (fun _ s w h => ?_) ?_ ?_
      (hi := hgp) (hqi := ?_)
    · obtain ⟨c', a1, _⟩ := h.1.c0wf.erase_ok e
      exact ⟨_, by unfold BG.eraseBuf; rw [a1]; rfl⟩
    · intro s w s' b h hs
      exact FewPre.eraseBuf S ht hD hB hN h hs
    · rintro b s w s' w' ⟨h1, h2⟩ hw
      exact ⟨fun hb => FewPost_stable hK S c e L B _ _ _ _ (h1 hb) hw, fun hb => hstl _ _ _ _ (h2 hb) hw⟩
    · rintro b s w ⟨h1, h2⟩
      cases b with
      | true => exact hgq _ _ (h1 rfl)
      | false => exact hgp _ _ (h2 rfl).1
  · intro b
    have hstb : Stable (worker K S) (fun s w => (b = true → FewPost (K := K) S c e L B s w) ∧
        (b = false → FewPre S c N L B s w ∧ e ∉ s.g.c0.live)) := by
      rintro s w s' w' ⟨h1, h2⟩ hw
      exact ⟨fun hb => FewPost_stable hK S c e L B _ _ _ _ (h1 hb) hw, fun hb => hstl _ _ _ _ (h2 hb) hw⟩
    cases b with
    | true =>
      rw [if_pos rfl]
      exact Ok.ret _ hstb (fun _ _ h => h.1 rfl) (fun _ _ h => hgq _ _ (h.1 rfl))
    | false =>
      rw [if_neg Bool.false_ne_true]
      refine Ok.wait _ hstb (P' := fun s w => (FewPre S c N L B s w ∧ e ∉ s.g.c0.live) ∧ s.needs = false) ?_ ?_
        (fun _ _ h => hgp _ _ (h.2 rfl).1)
      · rintro s w ⟨_, h⟩ hn
        exact ⟨h rfl, by simpa using hn⟩
      · refine Ok.bind (R := fun es s w => FewPost S c e L B s w ∧ es = []) _ ?_ ?_
        · refine Ok.act _ ?_ ?_ (fun _ s w h => ?_) ?_ ?_ (hi := fun _ _ h => hgp _ _ h.1.1) (hqi := fun _ _ _ h => hgq _ _ h.1)
          · rintro s w s' w' ⟨h, hn⟩ hw
            exact ⟨hstl _ _ _ _ h hw, (wstep_frame hw).2.2.2.2.2.2 hn⟩
          · rintro s w ⟨⟨h, _⟩, hn⟩; exact no_conflict_idle (h.1.stage.idle hn).1
          · unfold BG.eraseLevels
            dsimp only
            split <;> exact ⟨_, rfl⟩
          · rintro s w s' es ⟨⟨h, hl⟩, hn⟩ hs
            obtain ⟨r1, r2⟩ := FewPre.eraseLevels hK S hM hS ht hD he (fun hb => (hB hb).1) hN hX h hl hn hs
            exact ⟨r2, r1⟩
          · rintro es s w s' w' ⟨h, h1⟩ hw
            exact ⟨FewPost_stable hK S c e L B _ _ _ _ h hw, h1⟩
        · intro es
          by_cases hes : es = []
          · subst hes
            refine Ok.ret _ ?_ (fun _ _ h => h.1) (fun _ _ h => hgq _ _ h.1)
            rintro s w s' w' ⟨h, h1⟩ hw
            exact ⟨FewPost_stable hK S c e L B _ _ _ _ h hw, h1⟩
          · exact Ok.absurd _ (fun s w h => hes h.2)

end

end BG
end DK2
