import Verif.BgFew
import Verif.PropsBgIter
import Verif.PropsPrune
/-!
# C100, C101: `DKtree_background` and `DKtree_background_wait` with rare deletions
-/

namespace DK2
namespace BG
open DK (inserts)
variable {K : K2Impl}

/-- The stored edges are those of the record, each once, and at most as many are marked in the levels as were deleted. -/
structure Few (S : Sizing) (n : Nat) (v : Win) (c : JC) (s : BG K) (w : WPC K.T) : Prop where
  n : c.n = n
  tot : c.tot
  D : ∀ e, ¬ c.D e
  inv : JJ S c s w
  mem : ∀ e, c.G e ↔ e ∈ v.present
  nd : v.present.Nodup
  few : c.k ≤ v.dels

theorem Few.cnt {S : Sizing} {n : Nat} {v : Win} {c : JC} {s : BG K} {w : WPC K.T} (h : Few S n v c s w) :
    s.g.nTotal = v.present.length := by
  have h1 := h.inv.num h.D
  rw [Nat.add_zero] at h1
  rw [← h1]
  exact length_eq_of_mem_iff (nodup_of_count (fun e => h.inv.one e (h.D e))) h.nd
    (fun e => by rw [← h.inv.mem e]; exact h.mem e)

theorem Few.live {S : Sizing} {n : Nat} {v : Win} {c : JC} {s : BG K} {w : WPC K.T} (h : Few S n v c s w) {e : Edge}
    (he : e ∈ s.g.c0.live) : e ∈ v.present := by
  rw [← h.mem e, h.inv.mem e]
  exact List.mem_append_left _ he

theorem Few.work (hK : K.Lawful) {S : Sizing} {n : Nat} {v : Win} {c : JC} {s s' : BG K} {w w' : WPC K.T}
    (h : Few S n v c s w) (hs : wstep S s w = .ok (s', w')) : Few S n v c s' w' :=
  ⟨h.n, h.tot, h.D, JJ_stable hK S _ _ _ _ _ h.inv hs, h.mem, h.nd, h.few⟩

theorem Few.del_ok (hK : K.Lawful) (hM : K.MarksOne) {S : Sizing} {X : Nat} (hS : S.Calibrated X) (wv : Bool) {n : Nat}
    {v : Win} {c : JC} {s : BG K} {w : WPC K.T} (h : Few S n v c s w) {e : Edge} (he : InRange n e)
    (hr : (v.step (.del e)).Rare) (hX : v.present.length ≤ X) {B : Prop} (hB : B → c.cm ∧ e ∉ s.g.c0.live) :
    Ok (worker K S) (good S True) True (delEdge wv S e) (FewPre S c v.present.length s.g.c0.live B)
      (fun _ s' w' => FewPost S c e s.g.c0.live B s' w') := by
  refine delEdge_few_ok hK S hM hS wv h.tot h.D (h.n ▸ he) hB (fun hg => ?_) hX
  have hm := (h.mem e).1 hg
  have hp := List.length_pos_of_mem hm
  simp only [Win.step, if_pos hm, Win.Rare, List.length_erase_of_mem hm] at hr
  have := h.few
  omega

theorem Few.pre {S : Sizing} {n : Nat} {v : Win} {c : JC} {s : BG K} {w : WPC K.T} (h : Few S n v c s w) (B : Prop) :
    FewPre S c v.present.length s.g.c0.live B s w := ⟨h.inv, h.cnt, fun _ => rfl⟩

theorem Few.del {S : Sizing} {n : Nat} {v : Win} {c : JC} {s s' : BG K} {w w' : WPC K.T} (h : Few S n v c s w) {e : Edge}
    {L : List Edge} {B : Prop} (hp : FewPost S c e L B s' w') :
    ∃ c', Few S n (v.step (.del e)) c' s' w' ∧ (B → c'.cm ∧ s'.g.c0.live = L) := by
  obtain ⟨c', h1, h2, h3, h4, h5, h6, h7, h8⟩ := hp
  obtain ⟨p1, p2⟩ := present_step h.nd (.del e)
  refine ⟨c', ⟨h2.trans h.n, h3, h4, h1, fun e' => ?_, p1, ?_⟩, h8⟩
  · rw [h5, p2, h.mem]
    simp only [specStep]
    exact And.comm
  · have := h.few
    by_cases hm : e ∈ v.present
    · simp only [Win.step, if_pos hm]; omega
    · simp only [Win.step, if_neg hm]
      rw [h7 (fun hg => hm ((h.mem e).1 hg))]
      exact this

theorem Few.add {S : Sizing} {n : Nat} {v : Win} {c : JC} {s s' : BG K} {w w' : WPC K.T} (h : Few S n v c s w) {e : Edge}
    (hne : e ∉ v.present) {V : Edge → Prop} (hJ : JJ S (c.add e V) s' w') :
    Few S n (v.step (.add e)) (c.add e V) s' w' := by
  have hG : ¬ c.G e := fun hg => hne ((h.mem e).1 hg)
  obtain ⟨p1, p2⟩ := present_step h.nd (.add e)
  refine ⟨h.n, h.tot, ?_, hJ, fun e' => ?_, p1, ?_⟩
  · rintro e' (h1 | ⟨_, h1⟩)
    · exact h.D e' h1
    · exact hG h1
  · rw [p2]
    simp only [specStep, JC.add, h.mem]
  · simp only [Win.step, if_neg hne]; exact h.few

/-- While no buffered edge was deleted and the buffer holds recent edges only. -/
structure TrackF (S : Sizing) (n B : Nat) (v : Win) (c : JC) (s : BG K) (w : WPC K.T) : Prop where
  few : Few S n v c s w
  cm : c.cm
  rare : v.Rare
  recent : ∀ x ∈ s.g.c0.live, x ∈ v.log.take s.g.c0.live.length
  len : s.g.c0.live.length ≤ B

theorem TrackF.add (hK : K.Lawful) {S : Sizing} {n B M : Nat} (hB : ∀ k, k ≤ M → S.maxsz (max n k) 0 ≤ B) {v : Win}
    (hM : v.present.length ≤ M) {c : JC} {s s' : BG K} {w w' : WPC K.T} (h : TrackF S n B v c s w) {e : Edge}
    (he : InRange n e) (hne : e ∉ v.present) (hx : Exec (worker K S) (addEdge true S e) s w (.ret ()) s' w') :
    ∃ c', TrackF S n B (v.step (.add e)) c' s' w' := by
  have hJ := h.few.inv
  obtain ⟨V, a1, _, _⟩ := (addEdge_ok hK S true c (h.few.n ▸ he)).post _ hJ hx
  have hb : Buf s.g.c0.live v.present.length n s := ⟨hJ.c0wf, rfl, h.few.cnt, by rw [hJ.nv, h.few.n]⟩
  have hq := (addEdge_buf S e).post _ ⟨hb, trivial⟩ (Exec.quiet hx)
  have hstep : v.step (.add e) = ⟨e :: v.present, e :: v.log, v.dels⟩ := by simp only [Win.step, if_neg hne]
  have hF := h.few.add hne a1
  refine ⟨c.add e V, hF, h.cm, ?_, ?_, ?_⟩
  · have := h.rare
    rw [hstep]; unfold Win.Rare at this ⊢; simp only [List.length_cons]; omega
  · rw [hstep]
    rcases hq with ⟨_, q⟩ | q | ⟨q, _⟩
    · have := hF.cnt
      rw [hstep, q] at this
      simp at this
    · rw [q]; simp
    · intro x hx
      rw [q, List.length_append, List.length_singleton, List.take_succ_cons]
      rw [q] at hx
      rcases List.mem_append.1 hx with h1 | h1
      · exact List.mem_cons_of_mem _ (h.recent x h1)
      · simp at h1; rw [h1]; exact List.mem_cons_self
  · rcases hq with ⟨q, _⟩ | q | ⟨q, q2⟩
    · rw [q]; exact h.len
    · rw [q]; simp
    · rw [q, List.length_append, List.length_singleton]
      have := hB _ hM
      omega

theorem TrackF.old {S : Sizing} {n B : Nat} {v : Win} {c : JC} {s : BG K} {w : WPC K.T} (h : TrackF S n B v c s w) {e : Edge}
    (ho : v.Old B e) : e ∉ s.g.c0.live := fun he =>
  ho (h.few.live he) (List.take_subset_take_left _ h.len (h.recent e he))

/-- What one call needs. -/
structure Next (n B M : Nat) (v : Win) (o : Op) : Prop where
  rng : InRange n o.edge
  le : (v.step o).present.length ≤ M
  new : ∀ e, o = .add e → e ∉ v.present
  del : ∀ e, o = .del e → (v.step o).Rare ∧ v.Old B e

theorem settled_next {n B M : Nat} {ops : List Op} {o : Op} (hs : Settled n B M (ops ++ [o]))
    (hn : ∀ e, ¬ ReAdded (ops ++ [o]) e) : Next n B M (Win.run ops) o := by
  obtain ⟨h1, h2, h3⟩ := hs ops o [] (by simp)
  rw [Win.run_snoc] at h2 h3
  refine ⟨h1, h2, ?_, h3⟩
  rintro e rfl hm
  exact hn e ⟨ops, [], by simp, ((Win.present_spec ops).2 e).1 hm⟩

theorem noReAdd_of_append {a b : List Op} (h : ∀ e, ¬ ReAdded (a ++ b) e) : ∀ e, ¬ ReAdded a e := by
  rintro e ⟨pre, post, h1, h2⟩
  exact h e ⟨pre, post ++ b, by rw [h1]; simp, h2⟩

theorem settled_le {n B M : Nat} {ops : List Op} (hs : Settled n B M ops) : (Win.run ops).present.length ≤ M := by
  rcases List.eq_nil_or_concat ops with rfl | ⟨l, o, rfl⟩
  · exact Nat.zero_le _
  · rw [List.concat_eq_append] at hs ⊢
    exact (hs l o [] (by simp)).2.1

theorem settled_range {n B M : Nat} {ops : List Op} (hs : Settled n B M ops) : OpsInRange n ops := by
  intro o ho
  obtain ⟨pre, post, h⟩ := List.append_of_mem ho
  exact (hs pre o post h).1

theorem Reach.trackF (hK : K.Lawful) (hM1 : K.MarksOne) {S : Sizing} {X : Nat} (hS : S.Calibrated X) {n B M : Nat}
    (h2 : 2 ≤ n) (hX : M ≤ X) (hB : ∀ k, k ≤ M → S.maxsz (max n k) 0 ≤ B) {ops : List Op} {s : BG K} {w : WPC K.T}
    (h : Reach true K S n ops s w) (hs : Settled n B M ops) (hn : ∀ e, ¬ ReAdded ops e) :
    ∃ c, TrackF S n B (Win.run ops) c s w := by
  induction h with
  | start h1 =>
    have hl : (init K true S n).g.c0.live = [] := by simp [init]
    refine ⟨_, ⟨rfl, trivial, fun e h => h, init_JJ true S n True (fun _ => h2), ?_, ?_, ?_⟩, trivial, ?_, ?_, ?_⟩
    · intro e; simp [Win.run]
    · simp [Win.run]
    · simp [Win.run]
    · simp [Win.run, Win.Rare]
    · rw [hl]; simp
    · rw [hl]; simp
  | work _ hw ih =>
    obtain ⟨c, hc⟩ := ih hs hn
    obtain ⟨f1, _⟩ := wstep_frame hw
    exact ⟨c, hc.few.work hK hw, hc.cm, hc.rare, by rw [f1]; exact hc.recent, by rw [f1]; exact hc.len⟩
  | @call ops o s s' w w' hprev he ih =>
    obtain ⟨c, hc⟩ := ih hs.of_append (noReAdd_of_append hn)
    have hnx := settled_next hs hn
    have hle := settled_le hs.of_append
    rw [Win.run_snoc]
    cases o with
    | add e => exact hc.add hK hB hle hnx.rng (hnx.new e rfl) he
    | del e =>
      obtain ⟨d1, d2⟩ := hnx.del e rfl
      have hp := (hc.few.del_ok hK hM1 hS true hnx.rng d1 (le_trans hle hX) (B := True)
        (fun _ => ⟨hc.cm, hc.old d2⟩)).post _ (hc.few.pre True) he
      obtain ⟨c', g1, g2⟩ := hc.few.del hp
      obtain ⟨g3, g4⟩ := g2 trivial
      have hlog : ((Win.run ops).step (.del e)).log = (Win.run ops).log := by
        simp only [Win.step]; split <;> rfl
      exact ⟨c', g1, g3, d1, by rw [g4, hlog]; exact hc.recent, by rw [g4]; exact hc.len⟩

/-! ### Insertions of distinct edges, then deletions -/

/-- `del_edge` of each of the edges. -/
def deletes (ds : List Edge) : List Op := ds.map Op.del

theorem Reach.trackD (hK : K.Lawful) {wv : Bool} {S : Sizing} {n : Nat} (h2 : 2 ≤ n) {ops : List Op} {s : BG K} {w : WPC K.T}
    (h : Reach wv K S n ops s w) {es : List Edge} (ho : ops = inserts es) (hd : es.Nodup) (hr : ∀ e ∈ es, InRange n e) :
    ∃ c, Few S n (Win.run ops) c s w ∧ c.cm := by
  induction h generalizing es with
  | start h1 =>
    refine ⟨_, ⟨rfl, trivial, fun e h => h, init_JJ wv S n True (fun _ => h2), ?_, ?_, ?_⟩, trivial⟩ <;> simp [Win.run]
  | work _ hw ih =>
    obtain ⟨c, h1, h3⟩ := ih ho hd hr
    exact ⟨c, h1.work hK hw, h3⟩
  | @call ops o s s' w w' hprev he ih =>
    rcases List.eq_nil_or_concat es with rfl | ⟨es', e, rfl⟩
    · simp [inserts] at ho
    · rw [List.concat_eq_append] at hd hr ho
      have ho' : ops ++ [o] = inserts es' ++ [Op.add e] := by simpa [inserts] using ho
      obtain ⟨h1, h3⟩ := List.append_inj' ho' rfl
      cases h3
      obtain ⟨q1, _, q2⟩ := List.nodup_append.1 hd
      obtain ⟨c, hc, hcm⟩ := ih h1 q1 (fun e' he' => hr e' (by simp [he']))
      obtain ⟨V, hJ, _, _⟩ := (addEdge_ok hK S wv c (hc.n ▸ hr e (by simp))).post _ hc.inv he
      rw [Win.run_snoc]
      refine ⟨c.add e V, hc.add (fun hm => ?_) hJ, hcm⟩
      rw [(Win.present_spec ops).2, h1, specMem_inserts] at hm
      exact q2 e hm e (by simp) rfl

/-- What is left, and how many deletions had an effect. -/
theorem run_prune {es : List Edge} (hd : es.Nodup) (ds : List Edge) :
    (Win.run (inserts es ++ deletes ds)).dels + (Win.run (inserts es ++ deletes ds)).present.length = es.length ∧
    ∀ e, e ∈ (Win.run (inserts es ++ deletes ds)).present ↔ e ∈ es ∧ e ∉ ds := by
  induction ds using List.reverseRecOn with
  | nil =>
    have h1 : ∀ l : List Edge, l.Nodup → (Win.run (inserts l)).dels = 0 := by
      intro l hl
      induction l using List.reverseRecOn with
      | nil => rfl
      | append_singleton l e ih =>
        have := ih (List.nodup_append.1 hl).1
        rw [show inserts (l ++ [e]) = inserts l ++ [Op.add e] by simp [inserts], Win.run_snoc]
        simp only [Win.step]
        split <;> exact this
    have h2 : ∀ e, e ∈ (Win.run (inserts es)).present ↔ e ∈ es := fun e => by
      rw [(Win.present_spec _).2, specMem_inserts]
    simp only [deletes, List.map_nil, List.append_nil]
    refine ⟨?_, fun e => by rw [h2]; simp⟩
    rw [h1 es hd, Nat.zero_add]
    exact length_eq_of_mem_iff (Win.present_spec _).1 hd h2
  | append_singleton ds d ih =>
    obtain ⟨i1, i2⟩ := ih
    have hnd := (Win.present_spec (inserts es ++ deletes ds)).1
    rw [show inserts es ++ deletes (ds ++ [d]) = (inserts es ++ deletes ds) ++ [Op.del d] by simp [deletes], Win.run_snoc]
    obtain ⟨_, p2⟩ := present_step hnd (.del d)
    refine ⟨?_, fun e => ?_⟩
    · simp only [Win.step]
      split
      · rename_i hm
        have := List.length_pos_of_mem hm
        simp only [List.length_erase_of_mem hm]
        omega
      · exact i1
    · rw [p2]
      simp only [specStep, i2]
      simp
      tauto

/-- At most one edge was deleted for every six left. -/
def RarePrune (es ds : List Edge) : Prop :=
  6 * (es.filter (fun e => decide (e ∈ ds))).length ≤ (es.filter (fun e => decide (e ∉ ds))).length

theorem RarePrune.run {es ds : List Edge} (hd : es.Nodup) (h : RarePrune es ds) {ds' : List Edge} (hs : ∀ d ∈ ds', d ∈ ds) :
    (Win.run (inserts es ++ deletes ds')).Rare := by
  obtain ⟨h1, h2⟩ := run_prune hd ds'
  have hnd := (Win.present_spec (inserts es ++ deletes ds')).1
  have h3 : (es.filter (fun e => decide (e ∉ ds))).length ≤ (Win.run (inserts es ++ deletes ds')).present.length := by
    refine List.Subperm.length_le (List.subperm_of_subset (hd.filter _) ?_)
    intro e he
    simp only [List.mem_filter, decide_eq_true_eq] at he
    rw [h2]
    exact ⟨he.1, fun hh => he.2 (hs e hh)⟩
  have h4 : (es.filter (fun e => decide (e ∈ ds))).length + (es.filter (fun e => decide (e ∉ ds))).length = es.length := by
    have := List.length_eq_length_filter_add (l := es) (fun e => decide (e ∈ ds))
    rw [this]
    congr 2
    refine List.filter_congr fun e _ => by simp
  unfold RarePrune at h
  unfold Win.Rare
  omega

theorem RarePrune.of_concat {es ds : List Edge} {d : Edge} (hra : RarePrune es (ds ++ [d])) : RarePrune es ds := by
  have h1 : (es.filter (fun e => decide (e ∈ ds))).length ≤ (es.filter (fun e => decide (e ∈ ds ++ [d]))).length :=
    (List.monotone_filter_right es (fun e he => by simp at he ⊢; exact Or.inl he)).length_le
  have h3 : (es.filter (fun e => decide (e ∉ ds ++ [d]))).length ≤ (es.filter (fun e => decide (e ∉ ds))).length :=
    (List.monotone_filter_right es (fun e he => by simp at he ⊢; exact he.1)).length_le
  unfold RarePrune at hra ⊢
  omega

theorem noReAdd_prune {es : List Edge} (hd : es.Nodup) (ds : List Edge) : ∀ e, ¬ ReAdded (inserts es ++ deletes ds) e := by
  induction ds using List.reverseRecOn with
  | nil => simpa [deletes] using noReAdd hd
  | append_singleton ds d ih =>
    intro e h
    rw [show inserts es ++ deletes (ds ++ [d]) = (inserts es ++ deletes ds) ++ [Op.del d] by simp [deletes]] at h
    rcases split_concat.1 h with h | ⟨h, _⟩
    · exact ih e h
    · cases h

theorem Reach.trackP (hK : K.Lawful) (hM1 : K.MarksOne) {S : Sizing} {X : Nat} (hS : S.Calibrated X) {wv : Bool} {n : Nat}
    (h2 : 2 ≤ n) {ops : List Op} {s : BG K} {w : WPC K.T} (h : Reach wv K S n ops s w) {es ds : List Edge}
    (ho : ops = inserts es ++ deletes ds) (hd : es.Nodup) (hX : es.length ≤ X) (hr : ∀ e ∈ es, InRange n e)
    (hr' : ∀ e ∈ ds, InRange n e) (hra : RarePrune es ds) : ∃ c, Few S n (Win.run ops) c s w := by
  have key : ∀ ds' : List Edge, (∀ d ∈ ds', d ∈ ds) → ops = inserts es ++ deletes ds' → ∃ c, Few S n (Win.run ops) c s w := by
    clear ho
    induction h with
    | start h1 =>
      intro ds' _ ho
      have := ho.symm
      simp [inserts, deletes] at this
      obtain ⟨c, hc, _⟩ := (Reach.start (wv := wv) (K := K) (S := S) h1).trackD hK h2 (es := []) rfl (by simp) (by simp)
      exact ⟨c, hc⟩
    | work _ hw ih =>
      intro ds' hs ho
      obtain ⟨c, h1⟩ := ih ds' hs ho
      exact ⟨c, h1.work hK hw⟩
    | @call ops o s s' w w' hprev he ih =>
      intro ds' hs ho
      rcases List.eq_nil_or_concat ds' with rfl | ⟨ds1, d, rfl⟩
      · obtain ⟨c, hc, _⟩ := (Reach.call hprev he).trackD hK h2 (es := es) (by simpa [deletes] using ho) hd hr
        exact ⟨c, hc⟩
      · rw [List.concat_eq_append] at ho hs
        have ho' : ops ++ [o] = (inserts es ++ deletes ds1) ++ [Op.del d] := by simpa [deletes] using ho
        obtain ⟨h1, h3⟩ := List.append_inj' ho' rfl
        cases h3
        obtain ⟨c, hc⟩ := ih ds1 (fun x hx => hs x (by simp [hx])) h1
        have hrun := hra.run hd hs
        rw [← ho, Win.run_snoc] at hrun
        have hlen := (run_prune hd ds1).1
        rw [← h1] at hlen
        have hp := (hc.del_ok hK hM1 hS wv (hr' d (hs d (by simp))) hrun (by omega) (B := False) False.elim).post _
          (hc.pre False) he
        obtain ⟨c', g1, _⟩ := hc.del hp
        rw [Win.run_snoc]
        exact ⟨c', g1⟩
  exact key ds (fun _ h => h) ho

end BG

open BG
open DK (inserts)
variable {K : K2Impl}

/-- A call is safe from here: on every schedule, at every moment until it returns, neither the next step of the caller nor
the next step of the worker fails, the two do not race, and some continuation brings the call to its end. -/
def CallSafe (S : Sizing) {α : Type} (p : BProg K α) (s : BG K) (w : WPC K.T) : Prop :=
  ∀ p' s' w', Exec (worker K S) p s w p' s' w' →
    ¬ CBad p' s' ∧ (∃ r, wstep S s' w' = .ok r) ∧ ¬ Race (worker K S) p' w' ∧
      ∃ a s2 w2, Exec (worker K S) p' s' w' (.ret a) s2 w2

theorem callSafe_of (hK : K.Lawful) {S : Sizing} (hT : S.Top) {α : Type} {p : BProg K α} {s : BG K} {w : WPC K.T}
    {P : BG K → WPC K.T → Prop} {Q : α → BG K → WPC K.T → Prop} {tot tg : Prop} (htt : tot) (htg : tg)
    (hok : Ok (worker K S) (good S tg) tot p P Q) (hw : WaitsIdle p) (hp : P s w) : CallSafe S p s w := by
  intro p' s' w' hx
  obtain ⟨c', lv, cv, x, hJ, ht⟩ := hok.inv _ hp hx
  obtain ⟨P', h3, h4⟩ := hok.exec _ hp hx
  exact ⟨hok.nobad _ htt hp hx, hJ.wok hK hT (ht htg), hok.norace _ hp hx, Ok.returns hK hT htt htg h3 (hw.exec hx) h4⟩

/-! ## C100 `DKtree_background_wait`, settled histories -/

/-- C100, the call: after a settled history in which no present edge was inserted, on every schedule, every call that keeps
the history settled is safe. -/
theorem C100_calls (hK : K.Lawful) (hM1 : K.MarksOne) {S : Sizing} {X : Nat} (hS : S.Calibrated X) {n B M : Nat}
    (h2 : 2 ≤ n) (hX : M ≤ X) (hB : ∀ k, k ≤ M → S.maxsz (max n k) 0 ≤ B) {ops : List Op} {o : Op} {s : BG K}
    {w : WPC K.T} (hs : Settled n B M (ops ++ [o])) (hn : ∀ e, ¬ ReAdded (ops ++ [o]) e)
    (hr : BG.Reach true K S n ops s w) : CallSafe S (BG.call true S o) s w := by
  obtain ⟨c, hc⟩ := hr.trackF hK hM1 hS h2 hX hB hs.of_append (noReAdd_of_append hn)
  have hnx := settled_next hs hn
  have hle := settled_le hs.of_append
  cases o with
  | add e =>
    exact callSafe_of hK hS.top ⟨hc.few.tot, hc.cm⟩ hc.few.tot (addEdge_ok hK S true c (hc.few.n ▸ hnx.rng))
      (call_waits true S (.add e)) hc.few.inv
  | del e =>
    obtain ⟨d1, d2⟩ := hnx.del e rfl
    exact callSafe_of hK hS.top trivial trivial (hc.few.del_ok hK hM1 hS true hnx.rng d1 (le_trans hle hX) (B := True)
        (fun _ => ⟨hc.cm, hc.old d2⟩)) (call_waits true S (.del e)) (hc.few.pre True)


/-- C100, the history: every settled history in which no present edge is inserted runs to its end. -/
theorem C100_reachable (hK : K.Lawful) (hM1 : K.MarksOne) {S : Sizing} {X : Nat} (hS : S.Calibrated X) {n B M : Nat}
    (h2 : 2 ≤ n) (hX : M ≤ X) (hB : ∀ k, k ≤ M → S.maxsz (max n k) 0 ≤ B) {ops : List Op} (hs : Settled n B M ops)
    (hn : ∀ e, ¬ ReAdded ops e) : ∃ s w, BG.Reach true K S n ops s w := by
  induction ops using List.reverseRecOn with
  | nil => exact ⟨_, _, .start (by omega)⟩
  | append_singleton ops o ih =>
    obtain ⟨s, w, hr⟩ := ih hs.of_append (noReAdd_of_append hn)
    obtain ⟨_, _, _, _, s2, w2, h3⟩ := C100_calls hK hM1 hS h2 hX hB hs hn hr _ _ _ .start
    exact ⟨s2, w2, .call hr h3⟩

/-- C100, the answers: at every moment between two calls the edge count is exact and the worker can finish a pending merge
within 15 steps; with nothing pending all queries, loops and algorithms see exactly the edges of the history. -/
theorem C100_exact (hK : K.Lawful) (hM1 : K.MarksOne) {S : Sizing} {X : Nat} (hS : S.Calibrated X) {n B M : Nat}
    (h2 : 2 ≤ n) (hX : M ≤ X) (hB : ∀ k, k ≤ M → S.maxsz (max n k) 0 ≤ B) {ops : List Op} {s : BG K}
    {w : WPC K.T} (hs : Settled n B M ops) (hn : ∀ e, ¬ ReAdded ops e) (hr : BG.Reach true K S n ops s w) :
    (∃ l : List Edge, l.Nodup ∧ (∀ e, e ∈ l ↔ specMem ops e) ∧ s.numberEdges = l.length) ∧
    (s.needs = true → ∃ k s' w', k ≤ 15 ∧ wrun S k s w = .ok (s', w') ∧ s'.needs = false) ∧
    (s.needs = false →
      (∀ e, InRange n e → Answers S (contains e) s w (fun b => b = true ↔ specMem ops e)) ∧
      (∀ x, x < n → Answers S (listNeighbour x) s w (fun l => l.Nodup ∧ ∀ y, y ∈ l ↔ specMem ops (x, y))) ∧
      (n ≤ 9999999 → BG.Shows S n (specMem ops) s w)) := by
  obtain ⟨c, hc⟩ := hr.trackF hK hM1 hS h2 hX hB hs hn
  have ho := settled_range hs
  obtain ⟨q1, q2⟩ := C36_no_readd_partial hK S true ho hr hn
  refine ⟨q1, fun hp => ?_, fun hi => ?_⟩
  · obtain ⟨k, h1, h3⟩ := wrun_done hK (rank w) s w hc.few.inv hp (Nat.le_refl _)
    rcases h3 with ⟨s', w', h3, _, h4⟩ | ⟨_, h3⟩
    · exact ⟨k, s', w', Nat.le_trans h1 (rank_le hc.few.inv.stage), h3, h4⟩
    · exact absurd ⟨hS.top, hc.few.tot⟩ h3
  · refine ⟨(q2 hi).1, (q2 hi).2, fun h9 => ?_⟩
    exact C65_idle_partial hK S true (by omega) h9 ho hr hn hi ((hc.few.inv.tot hc.few.tot).c0m hc.cm)

/-! ## C101 both classes: build, then prune -/

/-- C101, the call: after distinct edges were inserted and some deleted, on every schedule, the next deletion is safe as
long as at most one edge is deleted for every six left - recently inserted ones included. -/
theorem C101_calls (hK : K.Lawful) (hM1 : K.MarksOne) {S : Sizing} {X : Nat} (hS : S.Calibrated X) (wv : Bool) {n : Nat}
    (h2 : 2 ≤ n) {es ds : List Edge} {d : Edge} (hd : es.Nodup) (hX : es.length ≤ X) (he : ∀ e ∈ es, InRange n e)
    (hdr : ∀ e ∈ ds ++ [d], InRange n e) (hra : RarePrune es (ds ++ [d])) {s : BG K} {w : WPC K.T}
    (hr : BG.Reach wv K S n (inserts es ++ deletes ds) s w) : CallSafe S (BG.call wv S (.del d)) s w := by
  have hra' := hra.run hd (ds' := ds ++ [d]) (fun _ h => h)
  have hlen := (run_prune hd ds).1
  rw [show inserts es ++ deletes (ds ++ [d]) = (inserts es ++ deletes ds) ++ [Op.del d] by simp [deletes],
    Win.run_snoc] at hra'
  have hrd : RarePrune es ds := hra.of_concat
  obtain ⟨c, hc⟩ := hr.trackP hK hM1 hS h2 rfl hd hX he (fun e h => hdr e (by simp [h])) hrd
  exact callSafe_of hK hS.top trivial trivial (hc.del_ok hK hM1 hS wv (hdr d (by simp)) hra' (by omega) (B := False)
    False.elim) (call_waits wv S (.del d)) (hc.pre False)

/-- C101, the history: it runs to its end. -/
theorem C101_reachable (hK : K.Lawful) (hM1 : K.MarksOne) {S : Sizing} {X : Nat} (hS : S.Calibrated X) (wv : Bool) {n : Nat}
    (h2 : 2 ≤ n) {es ds : List Edge} (hd : es.Nodup) (hX : es.length ≤ X) (he : ∀ e ∈ es, InRange n e)
    (hdr : ∀ e ∈ ds, InRange n e) (hra : RarePrune es ds) : ∃ s w, BG.Reach wv K S n (inserts es ++ deletes ds) s w := by
  induction ds using List.reverseRecOn with
  | nil =>
    obtain ⟨s, w, h⟩ := C56_reachable hK hS.top wv h2 es he
    exact ⟨s, w, by simpa [deletes] using h⟩
  | append_singleton ds d ih =>
    obtain ⟨s, w, hr⟩ := ih (fun e h => hdr e (by simp [h])) hra.of_concat
    obtain ⟨_, _, _, _, s2, w2, h3⟩ := C101_calls hK hM1 hS wv h2 hd hX he hdr hra hr _ _ _ .start
    refine ⟨s2, w2, ?_⟩
    rw [show inserts es ++ deletes (ds ++ [d]) = (inserts es ++ deletes ds) ++ [Op.del d] by simp [deletes]]
    exact .call hr h3

/-- C101, the answers: at every moment between two calls the edge count is exact and the worker can finish a pending merge
within 15 steps; with nothing pending `contains` and `list_neighbour` are exact. -/
theorem C101_exact (hK : K.Lawful) (hM1 : K.MarksOne) {S : Sizing} {X : Nat} (hS : S.Calibrated X) (wv : Bool) {n : Nat}
    (h2 : 2 ≤ n) {es ds : List Edge} (hd : es.Nodup) (hX : es.length ≤ X) (he : ∀ e ∈ es, InRange n e)
    (hdr : ∀ e ∈ ds, InRange n e) (hra : RarePrune es ds) {s : BG K} {w : WPC K.T}
    (hr : BG.Reach wv K S n (inserts es ++ deletes ds) s w) :
    s.numberEdges = (es.filter (fun e => decide (e ∉ ds))).length ∧
    (s.needs = true → ∃ k s' w', k ≤ 15 ∧ wrun S k s w = .ok (s', w') ∧ s'.needs = false) ∧
    (s.needs = false →
      (∀ e, InRange n e → Answers S (contains e) s w (fun b => b = true ↔ e ∈ es ∧ e ∉ ds)) ∧
      (∀ x, x < n → Answers S (listNeighbour x) s w (fun l => l.Nodup ∧ ∀ y, y ∈ l ↔ (x, y) ∈ es ∧ (x, y) ∉ ds))) := by
  obtain ⟨c, hc⟩ := hr.trackP hK hM1 hS h2 rfl hd hX he hdr hra
  have ho : OpsInRange n (inserts es ++ deletes ds) := by
    intro o hoo
    rcases List.mem_append.1 hoo with h | h
    · obtain ⟨e, h1, rfl⟩ := List.mem_map.1 h
      exact he e h1
    · obtain ⟨e, h1, rfl⟩ := List.mem_map.1 h
      exact hdr e h1
  have hmem : ∀ e, specMem (inserts es ++ deletes ds) e ↔ e ∈ es ∧ e ∉ ds := fun e => by
    rw [← (Win.present_spec _).2, (run_prune hd ds).2]
  obtain ⟨⟨l, l1, l2, l3⟩, q2⟩ := C36_no_readd_partial hK S wv ho hr (noReAdd_prune hd ds)
  refine ⟨?_, fun hp => ?_, fun hi => ?_⟩
  · rw [l3]
    refine length_eq_of_mem_iff l1 (hd.filter _) fun e => ?_
    rw [l2, hmem]
    simp
  · obtain ⟨k, h1, h3⟩ := wrun_done hK (rank w) s w hc.inv hp (Nat.le_refl _)
    rcases h3 with ⟨s', w', h3, _, h4⟩ | ⟨_, h3⟩
    · exact ⟨k, s', w', Nat.le_trans h1 (rank_le hc.inv.stage), h3, h4⟩
    · exact absurd ⟨hS.top, hc.tot⟩ h3
  · have := q2 hi
    simp only [hmem] at this
    exact this

/-! ## Instances -/

/-- A decision procedure for histories that insert no present edge. -/
def freshFrom (w : Win) : List Op → Bool
  | [] => true
  | o :: os => (match o with
      | .add e => decide (e ∉ w.present)
      | .del _ => true) && freshFrom (w.step o) os

theorem fresh_of_check {ops : List Op} (h : freshFrom ⟨[], [], 0⟩ ops = true) : ∀ e, ¬ ReAdded ops e := by
  have key : ∀ (os : List Op) (w : Win), freshFrom w os = true → ∀ pre e post, os = pre ++ .add e :: post →
      e ∉ (pre.foldl Win.step w).present := by
    intro os
    induction os with
    | nil => intro w _ pre e post hh; simp at hh
    | cons o os ih =>
      intro w hc pre e post hh
      simp only [freshFrom, Bool.and_eq_true] at hc
      cases pre with
      | nil =>
        simp only [List.nil_append, List.cons.injEq] at hh
        obtain ⟨rfl, rfl⟩ := hh
        simpa using hc.1
      | cons p pre =>
        simp only [List.cons_append, List.cons.injEq] at hh
        obtain ⟨rfl, rfl⟩ := hh
        exact ih _ hc.2 pre e post rfl
  rintro e ⟨pre, post, h1, h2⟩
  exact key ops _ h pre e post h1 (((Win.present_spec pre).2 e).2 h2)

/-- C100 applies to `wSettled`: 17 insertions and three deletions on 4 vertices, two of edges in levels, merges between. -/
example : ∃ (s : BG refK2) (w : WPC refK2.T), BG.Reach true refK2 realSizing 4 wSettled s w ∧ s.numberEdges = 15 := by
  have hs : Settled 4 2 16 wSettled := settled_of_check (by decide +kernel)
  have hn : ∀ e, ¬ ReAdded wSettled e := fresh_of_check (by decide +kernel)
  obtain ⟨s, w, hr⟩ := C100_reachable refK2_lawful refK2_marksOne realSizing_calibrated (by norm_num) (by norm_num) tab_cap hs hn
  obtain ⟨⟨l, l1, l2, l3⟩, _⟩ := C100_exact refK2_lawful refK2_marksOne realSizing_calibrated (by norm_num) (by norm_num)
    tab_cap hs hn hr
  refine ⟨s, w, hr, ?_⟩
  rw [l3, length_eq_of_mem_iff l1 (Win.present_spec wSettled).1 (fun e => by rw [l2, (Win.present_spec wSettled).2])]
  decide +kernel

/-- The worker finishes each merge before the next call; the numbers are the steps of the calls. -/
def evRecent : List Ev := ((wRecent.dropLast.zip [5, 8, 5, 8, 5, 8, 5, 8, 5, 1]).map fun p =>
  alone p.1 p.2 :: List.replicate 12 .work).flatten

/-- The next step of the caller fails. -/
def cbadB {α : Type} : BProg refK2 α → BG refK2 → Bool
  | .act _ f _, s => match f s with
    | .ok _ => false
    | _ => true
  | _, _ => false

theorem cbadB_sound {α : Type} {p : BProg refK2 α} {s : BG refK2} (h : cbadB p s = true) : CBad p s := by
  cases p with
  | ret a => cases h
  | wait c k => cases h
  | act acc f k =>
    intro r hr
    simp only [cbadB, hr] at h
    cases h

/-- C100 without the restriction to settled edges (`B = 0`) is false: one deletion of the edge inserted last, and the next
insertion fails (it writes out of bounds). -/
theorem C100_recent_refuted : Settled 5 0 16 wRecent ∧ (∀ e, ¬ ReAdded wRecent e) ∧
    ∃ (s : BG refK2) (w : WPC refK2.T), BG.Reach true refK2 realSizing 5 wRecent.dropLast s w ∧
      ¬ CallSafe realSizing (BG.call true realSizing (.add (3, 2))) s w := by
  refine ⟨settled_of_check (by decide +kernel), fresh_of_check (by decide +kernel), ?_⟩
  obtain ⟨s, w, h1, h2⟩ := playTest_sound (wv := true) (n := 5) (by decide) (l := evRecent) (f := fun s w =>
    schedTest (worker refK2 hybSizing) [true, true, true, true] (BG.call true hybSizing (.add (3, 2))) s w
      (fun p s _ => cbadB p s)) (by decide +kernel)
  obtain ⟨p', s', w', h3, h4⟩ := schedTest_sound h2
  refine ⟨s, w, h1, fun h => ?_⟩
  rw [realSizing_eq_hyb] at h
  exact (h p' s' w' h3).1 (cbadB_sound h4)

/-- C101 applies: 14 edges on 4 vertices, the edge inserted last and one held in a level are deleted. -/
example (wv : Bool) : ∃ (s : BG refK2) (w : WPC refK2.T), BG.Reach wv refK2 realSizing 4
    (inserts [(0, 0), (0, 1), (0, 2), (0, 3), (1, 0), (1, 1), (1, 2), (1, 3), (2, 0), (2, 1), (2, 2), (2, 3), (3, 0),
      (3, 1)] ++ deletes [(3, 1), (0, 0)]) s w ∧ s.numberEdges = 12 := by
  have hra : RarePrune [(0, 0), (0, 1), (0, 2), (0, 3), (1, 0), (1, 1), (1, 2), (1, 3), (2, 0), (2, 1), (2, 2), (2, 3),
      (3, 0), (3, 1)] [(3, 1), (0, 0)] := by unfold RarePrune; decide +kernel
  obtain ⟨s, w, hr⟩ := C101_reachable (K := refK2) refK2_lawful refK2_marksOne realSizing_calibrated wv (n := 4) (by norm_num)
    (by decide) (by norm_num) (by decide) (by decide) hra
  refine ⟨s, w, hr, ?_⟩
  rw [(C101_exact refK2_lawful refK2_marksOne realSizing_calibrated wv (by norm_num) (by decide) (by norm_num) (by decide)
    (by decide) hra hr).1]
  decide +kernel

end DK2
