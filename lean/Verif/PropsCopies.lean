import Verif.OwnCopies
import Verif.PropsReaders
/-!
# C104 – threads that each work on their own copy of a `DKtree`
-/

namespace DK2
open HG CWorld
variable {K : K2Impl}

/-- What the user expects of threads that each work on a copy of a graph that holds `A`: in every interleaving no race, no failure,
each thread returns what results from right answers about its own graph, and all threads can finish. -/
def CopiesOk {α : Type} (S : Sizing) (m : Nat) (ts : Nat → CQ α) (r : Heap K × HG) (A : SGraph) : Prop :=
  ∀ qs s w, MExec (noWorker (CWorld K) CLoc) (CWorld.threads S m ts) (copies r) () qs s w →
    ¬ MRace (noWorker (CWorld K) CLoc) qs w ∧ (∀ q ∈ qs, ¬ CBad q s) ∧
    (∀ (i : Nat) (a : α), i < m → qs[i]? = some (.ret a) → (ts i).Right a A) ∧
    ∃ rs s', MExec (noWorker (CWorld K) CLoc) qs s () rs s' () ∧ AllDone rs

/-- C104: any threads. -/
def C104_Full : Prop :=
  ∀ (K : K2Impl), K.Lawful → K.ForcedPure → ∀ (n : Nat) (es : List Edge) (r : Heap K × HG), 2 ≤ n → n ≤ 9999999 →
    (∀ e ∈ es, InRange n e) → HG.run K realSizing n (es.map Op.add) = .ok r →
    ∀ (m : Nat) (ts : Nat → CQ Ans), (∀ i, i < m → (ts i).Legal ⟨n, es.toFinset⟩) → CopiesOk realSizing m ts r ⟨n, es.toFinset⟩

/-! ## Steps -/

theorem HHolds.add (hK : K.Lawful) (hF : K.ForcedPure) {S : Sizing} (hT : S.Top) {h : Heap K} {o : HG} {A : SGraph} (a : HHolds h o A)
    {e : Edge} (he : InRange A.n e) : ∃ r, HG.addEdge S h o e = .ok r ∧ HHolds r.1 r.2 ⟨A.n, insert e A.E⟩ ∧ Keep h r.1 ∧ h.length ≤ r.1.length := by
  obtain ⟨g', h1, h2⟩ := a.val.add hK hF hT he
  have hr := HG.step_rel S a.own (.add e)
  have h1' : (view h o).step S (.add e) = .ok g' := h1
  rw [h1'] at hr
  obtain ⟨r, h3, h4, h5, h6, _⟩ := hr.ok_right
  exact ⟨r, h3, ⟨h5, h4 ▸ h2⟩, addEdge_keep hF a.own h3, h6.len⟩

/-- What holds of an interleaving of threads that do not delete. -/
structure CInv {α : Type} (S : Sizing) (m : Nat) (ts : Nat → CQ α) (A : SGraph) (us : Nat → CQ α) (As : Nat → SGraph) (s : CWorld K) : Prop where
  holds : ∀ i, HHolds s.heap (s.obj i) (As i)
  legal : ∀ i, i < m → (us i).Legal (As i)
  ins : ∀ i, i < m → (us i).InsertOnly
  asks : ∀ i q, i < m → (us i).Asks q → (ts i).Asks q
  right : ∀ i b, i < m → (us i).Right b (As i) → (ts i).Right b A

theorem threads_set {α : Type} {S : Sizing} {m i : Nat} (hi : i < m) (us : Nat → CQ α) (u : CQ α) :
    (CWorld.threads (K := K) S m us).set i (cprog S i u) = CWorld.threads S m (Function.update us i u) := by
  apply List.ext_getElem?
  intro j
  unfold CWorld.threads
  by_cases hj : j = i
  · subst hj
    rw [List.getElem?_set_self (by simpa using hi), List.getElem?_map, List.getElem?_range hi]
    simp
  · rw [List.getElem?_set_ne (Ne.symm hj), List.getElem?_map, List.getElem?_map]
    by_cases hm : j < m
    · simp [List.getElem?_range hm, Function.update_of_ne hj]
    · rw [List.getElem?_eq_none (by simpa using hm)]; rfl

theorem threads_get {α : Type} {S : Sizing} {m : Nat} {us : Nat → CQ α} {i : Nat} {q : Prog (CWorld K) CLoc α}
    (h : (CWorld.threads S m us)[i]? = some q) : i < m ∧ q = cprog S i (us i) := by
  have hi : i < m := by simpa [CWorld.threads] using (List.getElem?_eq_some_iff.1 h).1
  refine ⟨hi, ?_⟩
  rw [CWorld.threads, List.getElem?_map, List.getElem?_range hi] at h
  exact (Option.some.inj h).symm

theorem threads_at {α : Type} (S : Sizing) {m : Nat} (us : Nat → CQ α) {i : Nat} (h : i < m) :
    (CWorld.threads (K := K) S m us)[i]? = some (cprog S i (us i)) := by
  rw [CWorld.threads, List.getElem?_map, List.getElem?_range h]; rfl

/-- What is left of a thread after one call. -/
def CQ.Next {α : Type} : CQ α → CQ α → Prop
  | .done _, _ => False
  | .ask _ k, u => ∃ r, u = k r
  | .add _ k, u | .del _ k, u => u = k

/-- A step of thread `i`. -/
theorem CInv.step {α : Type} (hK : K.Lawful) (hF : K.ForcedPure) {S : Sizing} (hT : S.Top) {m : Nat} {ts us : Nat → CQ α} {A : SGraph}
    {As : Nat → SGraph} {s s' : CWorld K} (h : CInv S m ts A us As s) {i : Nat} (hi : i < m) {q' : Prog (CWorld K) CLoc α}
    (hs : CStep (cprog S i (us i)) s q' s') :
    ∃ u B, (us i).Next u ∧ q' = cprog S i u ∧ CInv S m ts A (Function.update us i u) (Function.update As i B) s' := by
  have upd : ∀ {P : Nat → CQ α → SGraph → Prop} {u : CQ α} {B : SGraph}, (∀ j, j < m → P j (us j) (As j)) → P i u B →
      ∀ j, j < m → P j (Function.update us i u j) (Function.update As i B j) := by
    intro P u B h1 h2 j hj
    by_cases hji : j = i
    · subst hji; simpa using h2
    · simpa [Function.update_of_ne hji] using h1 j hj
  have hl := h.legal i hi
  have hins := h.ins i hi
  have hask := fun q => h.asks i q hi
  have hri := fun b => h.right i b hi
  generalize us i = u at hs hl hins hask hri ⊢
  cases u with
  | done a => cases hs
  | ask q k =>
    rw [cprog] at hs
    cases hs with
    | act hf =>
      rw [Res.bind_eq_ok] at hf
      obtain ⟨r, h1, h2⟩ := hf
      injection h2 with h2
      injection h2 with h2 h2'
      subst h2 h2'
      have hans := DK.answersAll_of ((h.holds i).val.faithful hK) (h.holds i).val.nv (h.holds i).val.card
      obtain ⟨r', h3, h4⟩ := hans q hl.1
      rw [h1] at h3
      cases h3
      refine ⟨k r, As i, ⟨r, rfl⟩, rfl, ?_, ?_, ?_, ?_, ?_⟩
      · rw [Function.update_eq_self]; exact h.holds
      · exact upd (P := fun _ u B => u.Legal B) h.legal (hl.2 r h4)
      · exact upd (P := fun _ u _ => u.InsertOnly) (B := As i) h.ins (hins r)
      · intro j q' hj
        exact upd (P := fun j u _ => u.Asks q' → (ts j).Asks q') (B := As i) (fun j hj => h.asks j q' hj)
          (fun hq => hask q' (.inr ⟨r, hq⟩)) j hj
      · intro j b hj
        exact upd (P := fun j u B => u.Right b B → (ts j).Right b A) (fun j hj => h.right j b hj) (fun hb => hri b ⟨r, h4, hb⟩) j hj
  | add e k =>
    rw [cprog] at hs
    cases hs with
    | act hf =>
      unfold CWorld.add at hf
      rw [Res.bind_eq_ok] at hf
      obtain ⟨r, h1, h2⟩ := hf
      cases h2
      obtain ⟨r', h3, h4, h5, h6⟩ := (h.holds i).add hK hF hT hl.1
      rw [h1] at h3
      cases h3
      refine ⟨k, ⟨(As i).n, insert e (As i).E⟩, rfl, rfl, ?_, ?_, ?_, ?_, ?_⟩
      · intro j
        by_cases hj : j = i
        · subst hj; simpa using h4
        · simp only [Function.update_of_ne hj]
          exact (h.holds j).keep h5 h6
      · exact upd (P := fun _ u B => u.Legal B) h.legal hl.2
      · exact upd (P := fun _ u _ => u.InsertOnly) (B := ⟨(As i).n, insert e (As i).E⟩) h.ins hins
      · intro j q' hj
        exact upd (P := fun j u _ => u.Asks q' → (ts j).Asks q') (B := ⟨(As i).n, insert e (As i).E⟩) (fun j hj => h.asks j q' hj) (fun hq : k.Asks q' => hask q' hq) j hj
      · intro j b hj
        exact upd (P := fun j u B => u.Right b B → (ts j).Right b A) (B := ⟨(As i).n, insert e (As i).E⟩) (fun j hj => h.right j b hj)
          (fun hb : k.Right b ⟨(As i).n, insert e (As i).E⟩ => hri b hb) j hj
  | del e k => exact hins.elim

theorem CInv.exec {α : Type} (hK : K.Lawful) (hF : K.ForcedPure) {S : Sizing} (hT : S.Top) {m : Nat} {ts us : Nat → CQ α} {A : SGraph}
    {As : Nat → SGraph} {s s' : CWorld K} {w w' : Unit} {qs : List (Prog (CWorld K) CLoc α)} (h : CInv S m ts A us As s)
    (hx : MExec (noWorker (CWorld K) CLoc) (CWorld.threads S m us) s w qs s' w') :
    ∃ us' As', qs = CWorld.threads S m us' ∧ CInv S m ts A us' As' s' := by
  induction hx with
  | start => exact ⟨us, As, rfl, h⟩
  | caller _ hi hs ih =>
    obtain ⟨us', As', rfl, h1⟩ := ih
    obtain ⟨him, rfl⟩ := threads_get hi
    obtain ⟨u, B, _, rfl, h2⟩ := h1.step hK hF hT him hs
    exact ⟨_, _, threads_set him us' u, h2⟩
  | worker _ hw _ => cases hw

/-- The next stretch of a thread can be made. -/
theorem CInv.can {α : Type} (hK : K.Lawful) (hF : K.ForcedPure) {S : Sizing} (hT : S.Top) {m : Nat} {ts us : Nat → CQ α} {A : SGraph}
    {As : Nat → SGraph} {s : CWorld K} (h : CInv S m ts A us As s) {i : Nat} (hi : i < m) :
    (∃ a, us i = .done a) ∨ ∃ q' s', CStep (cprog S i (us i)) s q' s' := by
  have hl := h.legal i hi
  have hins := h.ins i hi
  generalize us i = u at hl hins
  cases u with
  | done a => exact .inl ⟨a, rfl⟩
  | ask q k =>
    have hans := DK.answersAll_of ((h.holds i).val.faithful hK) (h.holds i).val.nv (h.holds i).val.card
    obtain ⟨r, h3, _⟩ := hans q hl.1
    exact .inr ⟨_, s, .act (b := r) (by rw [h3]; rfl)⟩
  | add e k =>
    obtain ⟨r, h3, _⟩ := (h.holds i).add hK hF hT hl.1
    exact .inr ⟨_, _, .act (b := ()) (by unfold CWorld.add; rw [h3]; rfl)⟩
  | del e k => exact hins.elim

/-- Thread `i` can be brought to its end. -/
theorem CInv.finish {α : Type} (hK : K.Lawful) (hF : K.ForcedPure) {S : Sizing} (hT : S.Top) {m : Nat} {ts : Nat → CQ α} {A : SGraph}
    {i : Nat} (hi : i < m) : ∀ (u : CQ α) {us : Nat → CQ α} {As : Nat → SGraph} {s : CWorld K}, us i = u → CInv S m ts A us As s →
    ∃ us' As' s', MExec (noWorker (CWorld K) CLoc) (CWorld.threads S m us) s () (CWorld.threads S m us') s' () ∧
      CInv S m ts A us' As' s' ∧ (∃ a, us' i = .done a) ∧ ∀ j, j ≠ i → us' j = us j := by
  have go : ∀ {us : Nat → CQ α} {As : Nat → SGraph} {s : CWorld K}, CInv S m ts A us As s → (¬ ∃ a, us i = .done a) →
      (∀ u, (us i).Next u → ∀ {us' : Nat → CQ α} {As' : Nat → SGraph} {s1 : CWorld K}, us' i = u →
        CInv S m ts A us' As' s1 → ∃ us'' As'' s', MExec (noWorker (CWorld K) CLoc) (CWorld.threads S m us') s1 () (CWorld.threads S m us'') s' () ∧
          CInv S m ts A us'' As'' s' ∧ (∃ a, us'' i = .done a) ∧ ∀ j, j ≠ i → us'' j = us' j) →
      ∃ us' As' s', MExec (noWorker (CWorld K) CLoc) (CWorld.threads S m us) s () (CWorld.threads S m us') s' () ∧
        CInv S m ts A us' As' s' ∧ (∃ a, us' i = .done a) ∧ ∀ j, j ≠ i → us' j = us j := by
    intro us As s h hnd k
    obtain ⟨q', s1, hs⟩ := (h.can hK hF hT hi).resolve_left hnd
    obtain ⟨u, B, hn, hq, h2⟩ := h.step hK hF hT hi hs
    obtain ⟨us', As', s', a1, a2, a3, a4⟩ := k u hn (by simp) h2
    refine ⟨us', As', s', ?_, a2, a3, fun j hj => (a4 j hj).trans (Function.update_of_ne hj _ _)⟩
    have c1 := MExec.caller (w := ()) (.start (W := noWorker (CWorld K) CLoc)) (threads_at S us hi) hs
    rw [hq, threads_set hi us u] at c1
    exact c1.trans a1
  intro u
  induction u with
  | done a => intro us As s hu h; exact ⟨us, As, s, .start, h, ⟨a, hu⟩, fun _ _ => rfl⟩
  | ask q k ih =>
    intro us As s hu h
    refine go h (by rw [hu]; rintro ⟨a, ha⟩; cases ha) fun v hv us' As' s1 hu' h' => ?_
    rw [hu] at hv
    obtain ⟨r, rfl⟩ := hv
    exact ih r hu' h'
  | add e k ih =>
    intro us As s hu h
    refine go h (by rw [hu]; rintro ⟨a, ha⟩; cases ha) fun v hv us' As' s1 hu' h' => ?_
    rw [hu] at hv
    obtain rfl := hv
    exact ih hu' h'
  | del e k ih => intro us As s hu h; have := h.ins i hi; rw [hu] at this; exact this.elim

theorem CInv.finishAll {α : Type} (hK : K.Lawful) (hF : K.ForcedPure) {S : Sizing} (hT : S.Top) {m : Nat} {ts : Nat → CQ α} {A : SGraph}
    {us : Nat → CQ α} {As : Nat → SGraph} {s : CWorld K} (h : CInv S m ts A us As s) : ∀ j, j ≤ m →
    ∃ us' As' s', MExec (noWorker (CWorld K) CLoc) (CWorld.threads S m us) s () (CWorld.threads S m us') s' () ∧
      CInv S m ts A us' As' s' ∧ ∀ i, i < j → ∃ a, us' i = .done a := by
  intro j
  induction j with
  | zero => intro _; exact ⟨us, As, s, .start, h, fun i hi => absurd hi (Nat.not_lt_zero i)⟩
  | succ j ih =>
    intro hj
    obtain ⟨us', As', s', h1, h2, h3⟩ := ih (by omega)
    obtain ⟨us2, As2, s2, a1, a2, a3, a4⟩ := CInv.finish hK hF hT (by omega : j < m) (us' j) rfl h2
    refine ⟨us2, As2, s2, h1.trans a1, a2, fun i hi => ?_⟩
    by_cases hij : i = j
    · subst hij; exact a3
    · rw [a4 i hij]; exact h3 i (by omega)

/-- The accesses that are compared are complete, and not too many matter: two threads that do not delete conflict only if both run
over neighbours or both over edges. -/
theorem cprog_race {α : Type} {S : Sizing} {i j : Nat} (hij : i ≠ j) {u v : CQ α} (hu : u.InsertOnly) (hv : v.InsertOnly)
    (ha : ∀ q q', u.Asks q → v.Asks q' → ¬ q.SameTrees q') : ¬ PRace (cprog (K := K) S i u) (cprog S j v) := by
  have hw : ∀ (i : Nat) (q : Query) (l : CLoc), l ∈ qwr i q → l = .own i ∨ (l = .treeNb ∧ 0 ∈ q.iters) ∨ (l = .treeE ∧ 1 ∈ q.iters) := by
    intro i q l hl
    simp only [qwr, List.mem_append] at hl
    rcases hl with (hl | hl) | hl <;> split at hl <;> simp_all
  cases u with
  | done a => exact id
  | del e k => exact hu.elim
  | ask q k =>
    cases v with
    | done a => exact id
    | del e k => exact hv.elim
    | ask q' k' =>
      have hq := ha q q' (.inl rfl) (.inl rfl)
      rintro (⟨l, h1, h2⟩ | ⟨l, h1, h2⟩)
      · rcases hw i q l h1 with rfl | ⟨rfl, h3⟩ | ⟨rfl, h3⟩
        · rcases h2 with h2 | h2
          · simp [hij] at h2
          · rcases hw j q' _ h2 with h4 | h4 | h4 <;> simp_all
        · rcases h2 with h2 | h2
          · simp at h2
          · rcases hw j q' _ h2 with h4 | h4 | h4
            · cases h4
            · exact hq ⟨0, by simp, h3, h4.2⟩
            · cases h4.1
        · rcases h2 with h2 | h2
          · simp at h2
          · rcases hw j q' _ h2 with h4 | h4 | h4
            · cases h4
            · cases h4.1
            · exact hq ⟨1, by simp, h3, h4.2⟩
      · rcases hw j q' l h2 with rfl | ⟨rfl, h3⟩ | ⟨rfl, h3⟩ <;> simp [hij] at h1
        exact absurd h1.symm hij
    | add e k' =>
      rintro (⟨l, h1, h2⟩ | ⟨l, h1, h2⟩)
      · rcases hw i q l h1 with rfl | ⟨rfl, h3⟩ | ⟨rfl, h3⟩ <;> simp [hij] at h2
      · simp at h1 h2
        subst h2
        simp [Ne.symm hij] at h1
  | add e k =>
    cases v with
    | done a => exact id
    | del e k => exact hv.elim
    | ask q' k' =>
      rintro (⟨l, h1, h2⟩ | ⟨l, h1, h2⟩)
      · simp at h1
        subst h1
        rcases h2 with h2 | h2
        · simp [hij] at h2
        · rcases hw j q' _ h2 with h4 | h4 | h4 <;> simp_all
      · simp at h1
        subst h1
        rcases hw j q' _ h2 with h4 | h4 | h4 <;> simp_all
    | add e' k' =>
      rintro (⟨l, h1, h2⟩ | ⟨l, h1, h2⟩)
      · simp at h1 h2
        subst h1
        simp [hij] at h2
      · simp at h1 h2
        subst h2
        simp at h1

theorem copies_ok {α : Type} (hK : K.Lawful) (hF : K.ForcedPure) {S : Sizing} (hT : S.Top) {r : Heap K × HG} {A : SGraph}
    (hr : HHolds r.1 r.2 A) {m : Nat} {ts : Nat → CQ α} (hl : ∀ i, i < m → (ts i).Legal A) (hi : ∀ i, i < m → (ts i).InsertOnly)
    (ha : ∀ i j, i < m → j < m → i ≠ j → ∀ q q', (ts i).Asks q → (ts j).Asks q' → ¬ q.SameTrees q') : CopiesOk S m ts r A := by
  have h0 : CInv S m ts A ts (fun _ => A) (copies r) := ⟨fun _ => hr, hl, hi, fun _ _ _ h => h, fun _ _ _ h => h⟩
  intro qs s w hx
  obtain ⟨us, As, rfl, h⟩ := h0.exec hK hF hT hx
  refine ⟨?_, fun q hq => ?_, fun i a hi hq => ?_, ?_⟩
  · rintro (⟨i, j, p, q, hij, h1, h2, h3⟩ | ⟨p, hp, h3⟩)
    · obtain ⟨hi1, rfl⟩ := threads_get h1
      obtain ⟨hj1, rfl⟩ := threads_get h2
      exact cprog_race hij (h.ins i hi1) (h.ins j hj1)
        (fun q q' hq hq' => ha i j hi1 hj1 hij q q' (h.asks i q hi1 hq) (h.asks j q' hj1 hq')) h3
    · cases p with
      | act acc f k => rcases h3 with ⟨l, _, h4⟩ | ⟨l, _, h4⟩ <;> simp [noWorker, Acc.none] at h4
      | _ => exact h3
  · obtain ⟨i, hi'⟩ := List.getElem?_of_mem hq
    obtain ⟨him, rfl⟩ := threads_get hi'
    rcases h.can hK hF hT him with ⟨a, ha'⟩ | ⟨q', s', hs⟩
    · rw [ha']; exact id
    · cases hc : cprog (K := K) S i (us i) with
      | ret a => exact id
      | wait c k => exact id
      | act acc f k =>
        rw [hc] at hs
        intro hb
        cases hs with
        | act hf => exact hb _ hf
  · obtain ⟨_, hq'⟩ := threads_get hq
    refine h.right i a hi ?_
    cases hu : us i with
    | done b => rw [hu] at hq'; cases hq'; rfl
    | ask q k => rw [hu] at hq'; cases hq'
    | add e k => rw [hu] at hq'; cases hq'
    | del e k => rw [hu] at hq'; cases hq'
  · obtain ⟨us', As', s', h1, _, h3⟩ := h.finishAll hK hF hT m le_rfl
    refine ⟨_, s', h1, fun q hq => ?_⟩
    obtain ⟨i, hi'⟩ := List.getElem?_of_mem hq
    obtain ⟨him, rfl⟩ := threads_get hi'
    obtain ⟨a, ha'⟩ := h3 i him
    exact ⟨a, by rw [ha']; rfl⟩

/-! ## C104 -/

theorem HHolds.inserts (hK : K.Lawful) (hF : K.ForcedPure) {S : Sizing} (hT : S.Top) {n : Nat} {es : List Edge} {r : Heap K × HG}
    (h2 : 2 ≤ n) (hn : n ≤ 9999999) (hes : ∀ e ∈ es, InRange n e) (hr : HG.run K S n (es.map Op.add) = .ok r) :
    HHolds r.1 r.2 ⟨n, es.toFinset⟩ := by
  have hv := HG.run_rel (K := K) S n (es.map Op.add)
  rw [hr] at hv
  obtain ⟨g, h3, rfl, h5⟩ := hv.ok_left
  unfold DK.run DK.create at h3
  rw [if_neg (by omega), Res.ok_bind] at h3
  have h := Holds.adds hK hF hT es (Holds.init (K := K) S h2 hn) hes h3
  have e : (∅ : Finset Edge) ∪ es.toFinset = es.toFinset := by simp
  rw [e] at h
  exact ⟨h5, h⟩

/-- C104 for threads that delete nothing, no two of which run over neighbours (loops, `bfs`, `dfs`) and no two of which run over
edges (loops, triangle counts): any number of threads, each inserting into its own copy and asking about it. -/
theorem C104_insert_partial {α : Type} (hK : K.Lawful) (hF : K.ForcedPure) {n : Nat} {es : List Edge} {r : Heap K × HG} (h2 : 2 ≤ n)
    (hn : n ≤ 9999999) (hes : ∀ e ∈ es, InRange n e) (hr : HG.run K realSizing n (es.map Op.add) = .ok r) {m : Nat} {ts : Nat → CQ α}
    (hl : ∀ i, i < m → (ts i).Legal ⟨n, es.toFinset⟩) (hi : ∀ i, i < m → (ts i).InsertOnly)
    (ha : ∀ i j, i < m → j < m → i ≠ j → ∀ q q', (ts i).Asks q → (ts j).Asks q' → ¬ q.SameTrees q') :
    CopiesOk realSizing m ts r ⟨n, es.toFinset⟩ :=
  copies_ok hK hF realSizing_top (HHolds.inserts hK hF realSizing_top h2 hn hes hr) hl hi ha

/-- The declared accesses are right: an insertion or question of thread `i` changes no other copy and no tree that exists. -/
theorem C104_accesses {α : Type} (hF : K.ForcedPure) {S : Sizing} {i : Nat} {u : CQ α} (hu : u.InsertOnly) {s s' : CWorld K}
    {q : Prog (CWorld K) CLoc α} (ho : Own s.heap (s.obj i).ps) (hs : CStep (cprog S i u) s q s') :
    Keep s.heap s'.heap ∧ (∀ j, j ≠ i → s'.obj j = s.obj j) ∧ (∀ q k, u = .ask q k → s' = s) := by
  cases u with
  | done a => cases hs
  | del e k => exact hu.elim
  | ask q k =>
    rw [cprog] at hs
    cases hs with
    | act hf =>
      rw [Res.bind_eq_ok] at hf
      obtain ⟨r, _, h2⟩ := hf
      cases h2
      exact ⟨fun _ _ => rfl, fun _ _ => rfl, fun _ _ _ => rfl⟩
  | add e k =>
    rw [cprog] at hs
    cases hs with
    | act hf =>
      unfold CWorld.add at hf
      rw [Res.bind_eq_ok] at hf
      obtain ⟨r, h1, h2⟩ := hf
      cases h2
      exact ⟨addEdge_keep hF ho h1, fun j hj => Function.update_of_ne hj _ _, fun _ _ h => by cases h⟩

/-- Two threads that both run over neighbours, or both over edges, race at their first step, although each has its own copy. -/
theorem C104_clash {α : Type} {S : Sizing} {q q' : Query} (h : q.SameTrees q') {k k' : Ans → CQ α} {ts : Nat → CQ α}
    (h0 : ts 0 = .ask q k) (h1 : ts 1 = .ask q' k') : MRace (noWorker (CWorld K) CLoc) (CWorld.threads S 2 ts) () := by
  refine Or.inl ⟨0, 1, _, _, by decide, threads_at S ts (by decide), threads_at S ts (by decide), ?_⟩
  rw [h0, h1, cprog, cprog]
  obtain ⟨k, hk, h2, h3⟩ := h
  simp only [List.mem_cons, List.not_mem_nil, or_false] at hk
  rcases hk with rfl | rfl
  · exact Or.inl ⟨.treeNb, by simp [qwr, h2], .inr (by simp [qwr, h3])⟩
  · exact Or.inl ⟨.treeE, by simp [qwr, h2], .inr (by simp [qwr, h3])⟩

/-- C104 is false: two threads that loop over neighbours race, each on its own copy … -/
theorem C104_refuted : ¬ C104_Full := by
  intro h
  obtain ⟨g, h1, _⟩ := C02_insert_only refK2_lawful refK2_forcedPure (n := 3) (by decide) (es := [(0, 1)]) (by decide)
  have hv := HG.run_rel (K := refK2) realSizing 3 (([(0, 1)] : List Edge).map Op.add)
  rw [show DK.run refK2 realSizing 3 (([(0, 1)] : List Edge).map Op.add) = .ok g from h1] at hv
  obtain ⟨r, h3, _⟩ := hv.ok_right
  have := h refK2 refK2_lawful refK2_forcedPure 3 [(0, 1)] r (by decide) (by decide) (by decide) h3 2
    (fun i => .ask (.neighbourLoop (i % 3)) .done) (fun i _ => ⟨Nat.mod_lt i (by decide), fun _ _ => trivial⟩)
  exact (this _ _ _ .start).1 (C104_clash (q := .neighbourLoop 0) (q' := .neighbourLoop 1) (by decide) rfl rfl)

/-- … and a thread that deletes an edge from its own copy takes it away from the others: thread 1, which changes nothing, is told
that the edge `(0,0)` is not in its graph. -/
theorem C104_deletes : ∃ (r : Heap refK2 × HG) (qs : List (Prog (CWorld refK2) CLoc Ans)) (s : CWorld refK2),
    HG.run refK2 realSizing 3 (([(0, 0), (2, 0), (2, 1)] : List Edge).map Op.add) = .ok r ∧
    MExec (noWorker _ _) (CWorld.threads realSizing 2
      (fun i => if i = 0 then .del (0, 0) (.done (.bool true)) else .ask (.contains (0, 0)) .done)) (copies r) () qs s () ∧
    qs[1]? = some (.ret (.bool false)) ∧ ¬ (Query.contains (0, 0)).Right ⟨3, {(0, 0), (2, 0), (2, 1)}⟩ (.bool false) := by
  have hx : DK.check (HG.run refK2 hybSizing 3 [.add (0, 0), .add (2, 0), .add (2, 1)]) (fun r =>
      DK.check (HG.delEdge hybSizing r.1 r.2 (0, 0)) (fun w =>
        decide ((view w.1 r.2).contains (0, 0) = .ok false))) = true := by decide +kernel
  obtain ⟨r, h1, h2⟩ := DK.check_iff.1 hx
  obtain ⟨w, h3, h4⟩ := DK.check_iff.1 h2
  rw [← realSizing_eq_hyb] at h1 h3
  simp only [decide_eq_true_eq] at h4
  have c1 := MExec.caller (W := noWorker (CWorld refK2) CLoc) (w := ()) (i := 0) (.start (s := copies r)
    (ps := CWorld.threads realSizing 2
      (fun i => if i = 0 then CQ.del (0, 0) (.done (.bool true)) else .ask (.contains (0, 0)) .done))) rfl
    (.act (s' := ⟨w.1, Function.update (copies r).obj 0 w.2⟩) (b := ()) (by
      show (HG.delEdge realSizing r.1 r.2 (0, 0) >>= _) = _; rw [h3]; rfl))
  have c2 := MExec.caller (i := 1) c1 rfl
    (.act (s' := ⟨w.1, Function.update (copies r).obj 0 w.2⟩) (b := .bool false) (by
      show (((view w.1 (Function.update (copies r).obj 0 w.2 1)).contains (0, 0) >>= _) >>= _) = _
      rw [Function.update_of_ne (by decide), show (copies r).obj 1 = r.2 from rfl, h4]; rfl))
  refine ⟨r, _, _, h1, c2, rfl, ?_⟩
  intro h
  have := (show (false = true ↔ _) from h).2 (by decide)
  cases this

/-- Instance: thread 0 inserts and then loops over neighbours, thread 1 looks an edge up, inserts it if it is missing, and loops over the
edges, thread 2 inserts and looks up. -/
example : ∃ (r : Heap refK2 × HG) (ts : Nat → CQ Ans),
    HG.run refK2 realSizing 4 (([(0, 1), (1, 2), (2, 3)] : List Edge).map Op.add) = .ok r ∧
    CopiesOk realSizing 3 ts r ⟨4, ([(0, 1), (1, 2), (2, 3)] : List Edge).toFinset⟩ ∧
    ts 0 = .add (0, 2) (.ask (.neighbourLoop 0) .done) := by
  obtain ⟨g, h1, _⟩ := C02_insert_only refK2_lawful refK2_forcedPure (n := 4) (by decide) (es := [(0, 1), (1, 2), (2, 3)]) (by decide)
  have hv := HG.run_rel (K := refK2) realSizing 4 (([(0, 1), (1, 2), (2, 3)] : List Edge).map Op.add)
  rw [show DK.run refK2 realSizing 4 (([(0, 1), (1, 2), (2, 3)] : List Edge).map Op.add) = .ok g from h1] at hv
  obtain ⟨r, h3, _⟩ := hv.ok_right
  let ts : Nat → CQ Ans := fun i => if i = 0 then .add (0, 2) (.ask (.neighbourLoop 0) .done)
    else if i = 1 then .ask (.contains (3, 3)) fun a => if a = .bool true then .done a else .add (3, 3) (.ask .edgeLoop .done)
    else .add (0, 3) (.add (0, 1) (.ask (.contains (0, 2)) .done))
  have h012 : ∀ i, i < 3 → i = 0 ∨ i = 1 ∨ i = 2 := fun i hi => by omega
  have asks : ∀ i q, i < 3 → (ts i).Asks q → (i = 0 ∧ q = .neighbourLoop 0) ∨ (i = 1 ∧ (q = .contains (3, 3) ∨ q = .edgeLoop)) ∨
      (i = 2 ∧ q = .contains (0, 2)) := by
    intro i q hi hq
    rcases h012 i hi with rfl | rfl | rfl
    · rcases hq with rfl | ⟨_, hq⟩
      · exact .inl ⟨rfl, rfl⟩
      · exact hq.elim
    · refine .inr (.inl ⟨rfl, ?_⟩)
      rcases hq with rfl | ⟨a, hq⟩
      · exact .inl rfl
      · change CQ.Asks q (if a = .bool true then _ else _) at hq
        split at hq
        · exact hq.elim
        · rcases hq with rfl | ⟨_, hq⟩
          · exact .inr rfl
          · exact hq.elim
    · refine .inr (.inr ⟨rfl, ?_⟩)
      rcases hq with rfl | ⟨_, hq⟩
      · rfl
      · exact hq.elim
  refine ⟨r, ts, h3, C104_insert_partial refK2_lawful refK2_forcedPure (by decide) (by decide) (by decide) h3 ?_ ?_ ?_, rfl⟩
  · intro i hi
    rcases h012 i hi with rfl | rfl | rfl
    · exact ⟨(by decide : InRange 4 (0, 2)), (by decide : 0 < 4), fun _ _ => trivial⟩
    · refine ⟨(by decide : InRange 4 (3, 3)), fun a _ => ?_⟩
      show CQ.Legal _ (if a = .bool true then _ else _)
      split
      · exact trivial
      · exact ⟨(by decide : InRange 4 (3, 3)), trivial, fun _ _ => trivial⟩
    · exact ⟨(by decide : InRange 4 (0, 3)), (by decide : InRange 4 (0, 1)), (by decide : InRange 4 (0, 2)), fun _ _ => trivial⟩
  · intro i hi
    rcases h012 i hi with rfl | rfl | rfl
    · exact fun _ => trivial
    · intro a
      show CQ.InsertOnly (if a = .bool true then _ else _)
      split
      · exact trivial
      · exact fun _ => trivial
    · exact fun _ => trivial
  · intro i j hi hj hij q q' hq hq'
    rcases asks i q hi hq with ⟨rfl, rfl⟩ | ⟨rfl, rfl | rfl⟩ | ⟨rfl, rfl⟩ <;>
      rcases asks j q' hj hq' with ⟨rfl, rfl⟩ | ⟨rfl, rfl | rfl⟩ | ⟨rfl, rfl⟩ <;> first | exact absurd rfl hij | decide

end DK2
