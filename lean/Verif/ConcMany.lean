import Verif.Conc
/-!
# Several threads calling at a time

Any number of caller threads, each running its own program, and possibly the worker, share one state.  Every interleaving
of their steps is an execution.
-/

namespace DK2
variable {σ ω L α β : Type}

/-- Every execution of the threads `ps`: any interleaving of their steps and the worker's. -/
inductive MExec (W : Worker σ ω L) (ps : List (Prog σ L α)) (s : σ) (w : ω) : List (Prog σ L α) → σ → ω → Prop where
  | start : MExec W ps s w ps s w
  | caller {qs : List (Prog σ L α)} {s' : σ} {w' : ω} {i : Nat} {q q' : Prog σ L α} {s'' : σ} :
      MExec W ps s w qs s' w' → qs[i]? = some q → CStep q s' q' s'' → MExec W ps s w (qs.set i q') s'' w'
  | worker {qs : List (Prog σ L α)} {s' : σ} {w' : ω} {s'' : σ} {w'' : ω} :
      MExec W ps s w qs s' w' → W.step s' w' = .ok (s'', w'') → MExec W ps s w qs s'' w''

/-- The next stretches of two callers conflict. -/
def PRace : Prog σ L α → Prog σ L α → Prop
  | .act a _ _, .act b _ _ => a.Conflict b
  | _, _ => False

/-- Two of the threads race with each other, or one of them with the worker. -/
def MRace (W : Worker σ ω L) (qs : List (Prog σ L α)) (w : ω) : Prop :=
  (∃ (i j : Nat) (p q : Prog σ L α), i ≠ j ∧ qs[i]? = some p ∧ qs[j]? = some q ∧ PRace p q) ∨ ∃ p ∈ qs, Race W p w

/-- All threads have returned. -/
def AllDone (qs : List (Prog σ L α)) : Prop := ∀ q ∈ qs, ∃ a, q = .ret a

/-- No worker. -/
def noWorker (σ L : Type) : Worker σ Unit L := ⟨fun _ _ => .diverge, fun _ => .none⟩

/-- The program changes nothing and declares no write. -/
def Reader : Prog σ L α → Prop
  | .ret _ => True
  | .act acc f k => acc.wr = [] ∧ (∀ s s' b, f s = .ok (s', b) → s' = s) ∧ ∀ b, Reader (k b)
  | .wait _ k => Reader k

theorem Reader.read (acc : Acc L) (hw : acc.wr = []) (f : σ → Res β) : Reader (Prog.read acc f) := by
  refine ⟨hw, ?_, fun _ => trivial⟩
  intro s s' b h
  rw [Res.bind_eq_ok] at h
  obtain ⟨_, _, h⟩ := h
  cases h
  rfl

theorem Reader.bind {p : Prog σ L α} {f : α → Prog σ L β} (hp : Reader p) (hf : ∀ a, Reader (f a)) : Reader (p.bind f) := by
  induction p with
  | ret a => exact hf a
  | act acc g k ih => exact ⟨hp.1, hp.2.1, fun b => ih b (hp.2.2 b)⟩
  | wait c k ih => exact ih hp

theorem Reader.step {p q : Prog σ L α} {s s' : σ} (hp : Reader p) (h : CStep p s q s') : s' = s ∧ Reader q := by
  cases h with
  | act hf => exact ⟨hp.2.1 _ _ _ hf, hp.2.2 _⟩
  | pass _ => exact ⟨rfl, hp⟩

theorem Reader.norace {p q : Prog σ L α} (hp : Reader p) (hq : Reader q) : ¬ PRace p q := by
  cases p with
  | act a f k =>
    cases q with
    | act b g k' =>
      rintro (⟨l, h, _⟩ | ⟨l, _, h⟩)
      · rw [hp.1] at h; cases h
      · rw [hq.1] at h; cases h
    | _ => exact id
  | _ => exact id

/-- Among readers every thread runs as if it were alone (with the worker), and no two of them race. -/
theorem MExec.alone {W : Worker σ ω L} {ps qs : List (Prog σ L α)} {s s' : σ} {w w' : ω} (hr : ∀ p ∈ ps, Reader p)
    (h : MExec W ps s w qs s' w') :
    qs.length = ps.length ∧ (∀ (i : Nat) (p q : Prog σ L α), ps[i]? = some p → qs[i]? = some q → Exec W p s w q s' w' ∧ Reader q) ∧
      ∀ (i j : Nat) (p q : Prog σ L α), qs[i]? = some p → qs[j]? = some q → ¬ PRace p q := by
  have key : qs.length = ps.length ∧ (∀ (i : Nat) (p q : Prog σ L α), ps[i]? = some p → qs[i]? = some q → Exec W p s w q s' w' ∧ Reader q) := by
    induction h with
    | start =>
      refine ⟨rfl, fun i p q h1 h2 => ?_⟩
      rw [h1] at h2; cases h2
      exact ⟨.start, hr _ (List.mem_of_getElem? h1)⟩
    | @caller qs s' w' i q q' s'' _ hi hs ih =>
      obtain ⟨h1, h2⟩ := ih
      have hlt : i < qs.length := (List.getElem?_eq_some_iff.1 hi).1
      have hps : ∃ p, ps[i]? = some p := ⟨_, List.getElem?_eq_getElem (by omega)⟩
      obtain ⟨p0, hp0⟩ := hps
      obtain ⟨e0, r0⟩ := h2 i p0 q hp0 hi
      obtain ⟨rfl, r1⟩ := r0.step hs
      refine ⟨by simp [h1], fun j p r hj hr' => ?_⟩
      rw [List.getElem?_set] at hr'
      split at hr'
      · rename_i hij
        subst hij
        rw [hp0] at hj; cases hj
        cases hr'
        exact ⟨.caller e0 hs, r1⟩
      · exact h2 j p r hj hr'
    | worker _ hw ih =>
      obtain ⟨h1, h2⟩ := ih
      exact ⟨h1, fun i p q hp hq => ⟨.worker (h2 i p q hp hq).1 hw, (h2 i p q hp hq).2⟩⟩
  refine ⟨key.1, key.2, fun i j p q hi hj => ?_⟩
  have get : ∀ {i : Nat} {p : Prog σ L α}, qs[i]? = some p → Reader p := by
    intro i p hi
    have hlt : i < qs.length := (List.getElem?_eq_some_iff.1 hi).1
    have hlt' : i < ps.length := by have := key.1; omega
    exact (key.2 i _ p (List.getElem?_eq_getElem hlt') hi).2
  exact (get hi).norace (get hj)

theorem MExec.trans {W : Worker σ ω L} {ps qs rs : List (Prog σ L α)} {s s' s'' : σ} {w w' w'' : ω}
    (h : MExec W ps s w qs s' w') (h' : MExec W qs s' w' rs s'' w'') : MExec W ps s w rs s'' w'' := by
  induction h' with
  | start => exact h
  | caller _ h1 h2 ih => exact .caller ih h1 h2
  | worker _ h1 ih => exact .worker ih h1

/-- One thread runs, the others wait. -/
theorem MExec.one {W : Worker σ ω L} {qs : List (Prog σ L α)} {i : Nat} {q q' : Prog σ L α} {s s' : σ} {w w' : ω}
    (hi : qs[i]? = some q) (h : Exec W q s w q' s' w') : MExec W qs s w (qs.set i q') s' w' := by
  have hlt : i < qs.length := (List.getElem?_eq_some_iff.1 hi).1
  induction h with
  | start =>
    have hq : qs.set i q = qs := by
      apply List.ext_getElem?
      intro j
      by_cases h : i = j
      · subst h; rw [List.getElem?_set_self hlt, hi]
      · rw [List.getElem?_set_ne h]
    rw [hq]
    exact .start
  | @caller p' s' w' p'' s'' _ hs ih =>
    have := MExec.caller (i := i) ih (by rw [List.getElem?_set]; simp [hlt]) hs
    rwa [List.set_set] at this
  | worker _ hw ih => exact .worker ih hw

/-- If each reader can be brought to its end without changing the state or moving the worker, all can. -/
theorem MExec.all {W : Worker σ ω L} {s : σ} {w : ω} : ∀ (m : Nat) (qs : List (Prog σ L α)), m ≤ qs.length →
    (∀ q ∈ qs, ∃ a, Exec W q s w (.ret a) s w) →
    ∃ rs, MExec W qs s w rs s w ∧ rs.length = qs.length ∧ (∀ i, i < m → ∃ a, rs[i]? = some (.ret a)) ∧
      ∀ i, m ≤ i → rs[i]? = qs[i]? := by
  intro m
  induction m with
  | zero => intro qs _ _; exact ⟨qs, .start, rfl, by simp, fun _ _ => rfl⟩
  | succ m ih =>
    intro qs hm h
    obtain ⟨rs, h1, h2, h3, h4⟩ := ih qs (by omega) h
    have hq : qs[m]? = some qs[m] := List.getElem?_eq_getElem (by omega)
    obtain ⟨a, ha⟩ := h _ (List.getElem_mem (l := qs) (by omega : m < qs.length))
    refine ⟨rs.set m (.ret a), h1.trans (MExec.one (by rw [h4 m (Nat.le_refl _)]; exact hq) ha), by simp [h2], ?_, ?_⟩
    · intro i hi
      rw [List.getElem?_set]
      by_cases him : m = i
      · subst him
        simp only [if_true]
        rw [if_pos (by omega)]
        exact ⟨a, rfl⟩
      · rw [if_neg him]; exact h3 i (by omega)
    · intro i hi
      rw [List.getElem?_set, if_neg (by omega)]
      exact h4 i (by omega)

theorem MExec.allDone {W : Worker σ ω L} {s : σ} {w : ω} {qs : List (Prog σ L α)}
    (h : ∀ q ∈ qs, ∃ a, Exec W q s w (.ret a) s w) : ∃ rs, MExec W qs s w rs s w ∧ AllDone rs := by
  obtain ⟨rs, h1, h2, h3, _⟩ := MExec.all qs.length qs (Nat.le_refl _) h
  refine ⟨rs, h1, fun q hq => ?_⟩
  obtain ⟨i, hi⟩ := List.getElem?_of_mem hq
  have hlt : i < rs.length := (List.getElem?_eq_some_iff.1 hi).1
  obtain ⟨a, ha⟩ := h3 i (by omega)
  rw [ha] at hi
  exact ⟨a, (Option.some.inj hi).symm⟩

/-- An execution of a sequence is in its first part, or has finished that and is in the second. -/
theorem Exec.bind_cases {W : Worker σ ω L} {p : Prog σ L α} {f : α → Prog σ L β} {r : Prog σ L β} {s s' : σ} {w w' : ω}
    (h : Exec W (p.bind f) s w r s' w') :
    (∃ p', r = p'.bind f ∧ Exec W p s w p' s' w' ∧ ∀ a, p' ≠ .ret a) ∨
      ∃ a s1 w1, Exec W p s w (.ret a) s1 w1 ∧ Exec W (f a) s1 w1 r s' w' := by
  have fix : ∀ {p' : Prog σ L α} {s' : σ} {w' : ω}, Exec W p s w p' s' w' →
      (∃ p'', p'.bind f = p''.bind f ∧ Exec W p s w p'' s' w' ∧ ∀ a, p'' ≠ .ret a) ∨
      ∃ a s1 w1, Exec W p s w (.ret a) s1 w1 ∧ Exec W (f a) s1 w1 (p'.bind f) s' w' := by
    intro p' s' w' h
    cases p' with
    | ret a => exact Or.inr ⟨a, _, _, h, .start⟩
    | act acc g k => exact Or.inl ⟨_, rfl, h, by simp⟩
    | wait c k => exact Or.inl ⟨_, rfl, h, by simp⟩
  induction h with
  | start => exact fix .start
  | caller _ hs ih =>
    rcases ih with ⟨p', rfl, h1, h2⟩ | ⟨a, s1, w1, h1, h2⟩
    · cases p' with
      | ret a => exact absurd rfl (h2 a)
      | act acc g k =>
        cases hs with
        | act hf => exact fix (.caller h1 (.act hf))
      | wait c k =>
        cases hs with
        | pass hc => exact fix (.caller h1 (.pass hc))
    · exact Or.inr ⟨a, s1, w1, h1, .caller h2 hs⟩
  | worker _ hw ih =>
    rcases ih with ⟨p', rfl, h1, h2⟩ | ⟨a, s1, w1, h1, h2⟩
    · exact Or.inl ⟨p', rfl, .worker h1 hw, h2⟩
    · exact Or.inr ⟨a, s1, w1, h1, .worker h2 hw⟩

theorem CBad.of_bind {p : Prog σ L α} {f : α → Prog σ L β} {s : σ} (hr : ∀ a, p ≠ .ret a) (h : CBad (p.bind f) s) : CBad p s := by
  cases p with
  | ret a => exact absurd rfl (hr a)
  | act acc g k => exact h
  | wait c k => exact h

theorem Race.of_bind {W : Worker σ ω L} {p : Prog σ L α} {f : α → Prog σ L β} {w : ω} (hr : ∀ a, p ≠ .ret a)
    (h : Race W (p.bind f) w) : Race W p w := by
  cases p with
  | ret a => exact absurd rfl (hr a)
  | act acc g k => exact h
  | wait c k => exact h

/-! ## Threads that touch different things -/

/-- What it means that two states agree on a location. -/
structure Locs (σ L : Type) where
  same : L → σ → σ → Prop
  refl : ∀ l s, same l s s
  symm : ∀ l s t, same l s t → same l t s
  trans : ∀ l s t u, same l s t → same l t u → same l s u

/-- `f` changes only what `acc` declares written, and depends only on what it declares read. -/
def Locs.Within (A : Locs σ L) (acc : Acc L) (f : σ → Res (σ × β)) : Prop :=
  (∀ s s' b, f s = .ok (s', b) → ∀ l, l ∉ acc.wr → A.same l s s') ∧
  ∀ s t, (∀ l ∈ acc.rd, A.same l s t) → ∀ s' b, f s = .ok (s', b) → ∃ t', f t = .ok (t', b) ∧ ∀ l ∈ acc.wr, A.same l s' t'

/-- Every stretch is within its declaration, reads only in `T` and writes only in `U`; there are no waits. -/
def Locs.Touches (A : Locs σ L) (T U : L → Prop) : Prog σ L α → Prop
  | .ret _ => True
  | .act acc f k => A.Within acc f ∧ (∀ l ∈ acc.rd, T l) ∧ (∀ l ∈ acc.wr, U l) ∧ ∀ b, A.Touches T U (k b)
  | .wait _ _ => False

theorem Locs.Touches.bind {A : Locs σ L} {T U : L → Prop} {p : Prog σ L α} {f : α → Prog σ L β} (hp : A.Touches T U p)
    (hf : ∀ a, A.Touches T U (f a)) : A.Touches T U (p.bind f) := by
  induction p with
  | ret a => exact hf a
  | act acc g k ih => exact ⟨hp.1, hp.2.1, hp.2.2.1, fun b => ih b (hp.2.2.2 b)⟩
  | wait c k ih => exact hp.elim

theorem Locs.Touches.mono {A : Locs σ L} {T U T' U' : L → Prop} {p : Prog σ L α} (hp : A.Touches T U p)
    (hT : ∀ l, T l → T' l) (hU : ∀ l, U l → U' l) : A.Touches T' U' p := by
  induction p with
  | ret a => trivial
  | act acc g k ih => exact ⟨hp.1, fun l h => hT l (hp.2.1 l h), fun l h => hU l (hp.2.2.1 l h), fun b => ih b (hp.2.2.2 b)⟩
  | wait c k ih => exact hp.elim

/-- A read; locations whose contents are not kept may be declared written. -/
theorem Locs.Touches.read {A : Locs σ L} {T U : L → Prop} {rd wr : List L} {f : σ → Res β} (hT : ∀ l ∈ rd, T l)
    (hU : ∀ l ∈ wr, U l) (hw : ∀ l ∈ wr, ∀ s t, A.same l s t)
    (h : ∀ s t, (∀ l ∈ rd, A.same l s t) → f s = f t) : A.Touches T U (Prog.read ⟨rd, wr⟩ f) := by
  refine ⟨⟨?_, ?_⟩, hT, hU, fun _ => trivial⟩
  · intro s s' b hs l _
    rw [Res.bind_eq_ok] at hs
    obtain ⟨_, _, h2⟩ := hs
    cases h2
    exact A.refl l s
  · intro s t hl s' b hs
    rw [Res.bind_eq_ok] at hs
    obtain ⟨c, h1, h2⟩ := hs
    cases h2
    refine ⟨t, ?_, fun l hl => hw l hl _ _⟩
    show (f t >>= _) = _
    rw [← h s t hl, h1]
    rfl

/-- The outcome of a thread running alone. -/
def Prog.result : Prog σ L α → σ → Res α
  | .ret a, _ => .ok a
  | .act _ f k, s => f s >>= fun r => (k r.2).result r.1
  | .wait c k, s => if c s then k.result s else .diverge

theorem Exec.result {p q : Prog σ L α} {s t : σ} {w w' : Unit} (h : Exec (noWorker σ L) p s w q t w') : q.result t = p.result s := by
  induction h with
  | start => rfl
  | caller _ hs ih =>
    rw [← ih]
    cases hs with
    | act hf => show _ = (_ >>= _); rw [hf]; rfl
    | pass hc => show _ = (if _ then _ else _); rw [if_pos hc]
  | worker _ hw _ => cases hw

theorem Prog.exec_of_result : ∀ {p : Prog σ L α} {s : σ} {a : α}, p.result s = .ok a →
    ∃ t, Exec (noWorker σ L) p s () (.ret a) t () := by
  intro p
  induction p with
  | ret b => intro s a h; cases h; exact ⟨s, .start⟩
  | act acc f k ih =>
    intro s a h
    change (f s >>= _) = _ at h
    rw [Res.bind_eq_ok] at h
    obtain ⟨⟨s', b⟩, h1, h2⟩ := h
    obtain ⟨t, ht⟩ := ih b h2
    exact ⟨t, Exec.trans (.caller .start (.act h1)) ht⟩
  | wait c k ih =>
    intro s a h
    change (if c s then _ else _) = _ at h
    split at h
    · rename_i hc
      obtain ⟨t, ht⟩ := ih h
      exact ⟨t, Exec.trans (.caller .start (.pass hc)) ht⟩
    · cases h

theorem Prog.result_bind {p : Prog σ L α} {f : α → Prog σ L β} {s t : σ} {a : α}
    (h : Exec (noWorker σ L) p s () (.ret a) t ()) : (p.bind f).result s = (f a).result t := by
  have key : ∀ {q : Prog σ L α} {w : Unit} {t : σ}, Exec (noWorker σ L) p s () q t w → (q.bind f).result t = (p.bind f).result s := by
    intro q w t h
    induction h with
    | start => rfl
    | caller _ hs ih =>
      rw [← ih]
      cases hs with
      | act hf => show _ = (_ >>= _); rw [hf]; rfl
      | pass hc => show _ = (if _ then _ else _); rw [if_pos hc]
    | worker _ hw _ => cases hw
  exact (key h).symm

/-- The outcome depends only on what the program touches. -/
theorem Locs.Touches.result {A : Locs σ L} {T U : L → Prop} : ∀ {p : Prog σ L α}, A.Touches T U p → ∀ {s t : σ} {a : α},
    (∀ l, T l ∨ U l → A.same l s t) → p.result s = .ok a → p.result t = .ok a := by
  intro p
  induction p with
  | ret b => intro _ s t a _ h; exact h
  | act acc f k ih =>
    intro hp s t a hst h
    change (f s >>= _) = _ at h
    rw [Res.bind_eq_ok] at h
    obtain ⟨⟨s', b⟩, h1, h2⟩ := h
    obtain ⟨t', h3, h4⟩ := hp.1.2 s t (fun l hl => hst l (.inl (hp.2.1 l hl))) s' b h1
    have := ih b (hp.2.2.2 b) (s := s') (t := t') (a := a) (fun l hl => ?_) h2
    · show (f t >>= _) = _
      rw [h3]; exact this
    · by_cases hw : l ∈ acc.wr
      · exact h4 l hw
      · exact A.trans l _ _ _ (A.symm l _ _ (hp.1.1 _ _ _ h1 l hw)) (A.trans l _ _ _ (hst l hl) (hp.1.1 _ _ _ h3 l hw))
  | wait c k ih => intro hp; exact hp.elim

/-- Threads none of which writes what another touches: each runs as if it were alone, and no two of them race. -/
theorem MExec.apart {A : Locs σ L} {T U : Nat → L → Prop} {ps qs : List (Prog σ L α)} {s s' : σ} {w : Unit}
    (hp : ∀ (i : Nat) (p : Prog σ L α), ps[i]? = some p → A.Touches (T i) (U i) p) (hd : ∀ i j, i < ps.length → j < ps.length → i ≠ j → ∀ l, U i l → ¬ T j l ∧ ¬ U j l)
    (h : MExec (noWorker σ L) ps s () qs s' w) :
    qs.length = ps.length ∧ (∀ (i : Nat) (p q : Prog σ L α), ps[i]? = some p → qs[i]? = some q →
      A.Touches (T i) (U i) q ∧ ∃ t, Exec (noWorker σ L) p s () q t () ∧ ∀ l, T i l ∨ U i l → A.same l s' t) ∧
    ¬ MRace (noWorker σ L) qs w := by
  have key : qs.length = ps.length ∧ (∀ (i : Nat) (p q : Prog σ L α), ps[i]? = some p → qs[i]? = some q →
      A.Touches (T i) (U i) q ∧ ∃ t, Exec (noWorker σ L) p s () q t () ∧ ∀ l, T i l ∨ U i l → A.same l s' t) := by
    induction h with
    | start =>
      refine ⟨rfl, fun i p q h1 h2 => ?_⟩
      rw [h1] at h2; cases h2
      exact ⟨hp i p h1, s, .start, fun l _ => A.refl l s⟩
    | @caller qs s' w' i q q' s'' _ hi hs ih =>
      obtain ⟨h1, h2⟩ := ih
      have hlt : i < qs.length := (List.getElem?_eq_some_iff.1 hi).1
      have hps : ps[i]? = some ps[i] := List.getElem?_eq_getElem (by omega)
      obtain ⟨a0, t0, e0, s0⟩ := h2 i _ q hps hi
      cases hs with
      | pass hc => exact a0.elim
      | @act _ acc f k _ _ b hf =>
        obtain ⟨a1, a2, a3, a4⟩ := a0
        refine ⟨by simp [h1], fun j p r hj hr' => ?_⟩
        have hjl : j < ps.length := (List.getElem?_eq_some_iff.1 hj).1
        by_cases hij : i = j
        · subst hij
          rw [List.getElem?_set_self hlt] at hr'
          cases hr'
          rw [hps] at hj; cases hj
          obtain ⟨t', h3, h4⟩ := a1.2 _ t0 (fun l hl => s0 l (.inl (a2 l hl))) _ _ hf
          refine ⟨a4 b, t', .caller e0 (.act h3), fun l hl => ?_⟩
          by_cases hw : l ∈ acc.wr
          · exact h4 l hw
          · exact A.trans l _ _ _ (A.symm l _ _ (a1.1 _ _ _ hf l hw)) (A.trans l _ _ _ (s0 l hl) (a1.1 _ _ _ h3 l hw))
        · rw [List.getElem?_set_ne hij] at hr'
          obtain ⟨b0, t1, b1, b2⟩ := h2 j p r hj hr'
          refine ⟨b0, t1, b1, fun l hl => ?_⟩
          have hw : l ∉ acc.wr := fun hw => by
            have := hd i j (by omega) hjl hij l (a3 l hw)
            rcases hl with hl | hl
            · exact this.1 hl
            · exact this.2 hl
          exact A.trans l _ _ _ (A.symm l _ _ (a1.1 _ _ _ hf l hw)) (b2 l hl)
    | worker _ hw ih => cases hw
  refine ⟨key.1, key.2, ?_⟩
  have get : ∀ {i : Nat} {p : Prog σ L α}, qs[i]? = some p → i < ps.length ∧ A.Touches (T i) (U i) p := by
    intro i p hi
    have hlt : i < qs.length := (List.getElem?_eq_some_iff.1 hi).1
    have hlt' : i < ps.length := by have := key.1; omega
    exact ⟨hlt', (key.2 i _ p (List.getElem?_eq_getElem hlt') hi).1⟩
  rintro (⟨i, j, p, q, hij, hi, hj, hr⟩ | ⟨p, hpm, hr⟩)
  · obtain ⟨il, it⟩ := get hi
    obtain ⟨jl, jt⟩ := get hj
    cases p with
    | act a f k =>
      cases q with
      | act b g k' =>
        rcases hr with ⟨l, h1, h2 | h2⟩ | ⟨l, h1, h2⟩
        · exact (hd i j il jl hij l (it.2.2.1 l h1)).1 (jt.2.1 l h2)
        · exact (hd i j il jl hij l (it.2.2.1 l h1)).2 (jt.2.2.1 l h2)
        · exact (hd j i jl il (Ne.symm hij) l (jt.2.2.1 l h2)).1 (it.2.1 l h1)
      | _ => exact hr
    | _ => exact hr
  · cases p with
    | act a f k =>
      rcases hr with ⟨l, _, h2 | h2⟩ | ⟨l, _, h2⟩ <;> cases h2
    | _ => exact hr

/-- … and if each of them, alone, returns, then in every interleaving none fails, each returns that same value, and all can
finish. -/
theorem MExec.apart_ok {A : Locs σ L} {T U : Nat → L → Prop} {ps qs : List (Prog σ L α)} {s s' : σ} {w : Unit}
    (hp : ∀ (i : Nat) (p : Prog σ L α), ps[i]? = some p → A.Touches (T i) (U i) p) (hd : ∀ i j, i < ps.length → j < ps.length → i ≠ j → ∀ l, U i l → ¬ T j l ∧ ¬ U j l)
    (hr : ∀ p ∈ ps, ∃ a, p.result s = .ok a) (h : MExec (noWorker σ L) ps s () qs s' w) :
    (∀ q ∈ qs, ¬ CBad q s') ∧
    (∀ (i : Nat) (p : Prog σ L α) (a : α), ps[i]? = some p → qs[i]? = some (.ret a) → p.result s = .ok a) ∧
    ∃ (rs : List (Prog σ L α)) (s'' : σ), MExec (noWorker σ L) qs s' () rs s'' () ∧ AllDone rs := by
  have res : ∀ {qs : List (Prog σ L α)} {s' : σ} {w : Unit}, MExec (noWorker σ L) ps s () qs s' w → ∀ (i : Nat) (q : Prog σ L α), qs[i]? = some q →
      ∃ (p : Prog σ L α) (a : α), ps[i]? = some p ∧ p.result s = .ok a ∧ q.result s' = .ok a := by
    intro qs s' w h i q hi
    obtain ⟨h1, h2, _⟩ := h.apart hp hd
    have hlt : i < qs.length := (List.getElem?_eq_some_iff.1 hi).1
    have hps : ps[i]? = some ps[i] := List.getElem?_eq_getElem (by omega)
    obtain ⟨a0, t, e0, s0⟩ := h2 i _ q hps hi
    obtain ⟨a, ha⟩ := hr _ (List.mem_of_getElem? hps)
    refine ⟨_, a, hps, ha, ?_⟩
    have := e0.result
    rw [ha] at this
    exact a0.result (fun l hl => A.symm l _ _ (s0 l hl)) this
  refine ⟨fun q hq hb => ?_, fun i p a hi hq => ?_, ?_⟩
  · obtain ⟨i, hi⟩ := List.getElem?_of_mem hq
    obtain ⟨_, a, _, _, ha⟩ := res h i q hi
    cases q with
    | ret b => exact hb
    | act acc f k =>
      change (f s' >>= _) = _ at ha
      rw [Res.bind_eq_ok] at ha
      obtain ⟨r, h1, _⟩ := ha
      exact hb r h1
    | wait c k => exact hb
  · obtain ⟨p', b, h1, h2, h3⟩ := res h i _ hq
    rw [hi] at h1; cases h1
    cases h3
    exact h2
  · have fin : ∀ m, m ≤ qs.length → ∃ (rs : List (Prog σ L α)) (s'' : σ), MExec (noWorker σ L) qs s' w rs s'' () ∧ rs.length = qs.length ∧
        ∀ i, i < m → ∃ a, rs[i]? = some (.ret a) := by
      intro m
      induction m with
      | zero => intro _; exact ⟨qs, s', .start, rfl, by simp⟩
      | succ m ih =>
        intro hm
        obtain ⟨rs, s'', h1, h2, h3⟩ := ih (by omega)
        have hrm : rs[m]? = some rs[m] := List.getElem?_eq_getElem (by omega)
        obtain ⟨_, a, _, _, ha⟩ := res (h.trans h1) m _ hrm
        obtain ⟨t, ht⟩ := Prog.exec_of_result ha
        refine ⟨rs.set m (.ret a), t, h1.trans (MExec.one hrm ht), by simp [h2], fun i hi => ?_⟩
        by_cases him : m = i
        · subst him
          exact ⟨a, List.getElem?_set_self (by omega)⟩
        · rw [List.getElem?_set_ne him]; exact h3 i (by omega)
    obtain ⟨rs, s'', h1, h2, h3⟩ := fin qs.length (Nat.le_refl _)
    refine ⟨rs, s'', h1, fun q hq => ?_⟩
    obtain ⟨i, hi⟩ := List.getElem?_of_mem hq
    have hlt : i < rs.length := (List.getElem?_eq_some_iff.1 hi).1
    obtain ⟨a, ha⟩ := h3 i (by omega)
    rw [ha] at hi
    exact ⟨a, (Option.some.inj hi).symm⟩

end DK2
