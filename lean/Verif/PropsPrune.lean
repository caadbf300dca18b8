import Verif.Prune
import Verif.VarAlgo
import Verif.PropsSer
/-!
# C87, C88: histories with rare deletions
-/

namespace DK2

open DK

variable {K : K2Impl}

/-! ## The invariants -/

/-- The graph is the recorded one, and few edges are marked. -/
structure Few (n : Nat) (g : DK K) (w : Win) : Prop where
  ex : Exact g (fun e => e ∈ w.present)
  nd : w.present.Nodup
  nv : g.nv = n
  rare : w.Rare
  few : marks K g.ks ≤ w.dels

theorem Few.cnt {n : Nat} {g : DK K} {w : Win} (h : Few n g w) : g.nTotal = w.present.length := by
  rw [h.ex.cnt]
  exact length_eq_of_mem_iff h.ex.inv.nodup h.nd h.ex.mem

/-- The buffer has no erased slot and holds only recent insertions. -/
structure Calm (B : Nat) (g : DK K) (w : Win) : Prop where
  c0m : g.c0.marked = 0
  len : g.c0.live.length ≤ B
  recent : ∀ e ∈ g.c0.live, e ∈ w.log.take g.c0.live.length
  ne : g.NoEmptyTree

theorem present_step {w : Win} (hnd : w.present.Nodup) (o : Op) :
    (w.step o).present.Nodup ∧ ∀ e, e ∈ (w.step o).present ↔ specStep (fun e => e ∈ w.present) o e := by
  cases o with
  | add e =>
    simp only [Win.step, specStep]
    split
    · rename_i hm
      exact ⟨hnd, fun e' => ⟨Or.inr, fun h => h.elim (fun h => h ▸ hm) id⟩⟩
    · rename_i hm
      exact ⟨List.nodup_cons.2 ⟨hm, hnd⟩, fun e' => by simp⟩
  | del e =>
    simp only [Win.step, specStep]
    split
    · exact ⟨hnd.erase e, fun e' => hnd.mem_erase_iff⟩
    · rename_i hm
      exact ⟨hnd, fun e' => ⟨fun h => ⟨fun h' => hm (h' ▸ h), h⟩, And.right⟩⟩

theorem Few.exact_step (hK : K.Lawful) (hF : K.ForcedPure) (S : Sizing) {n : Nat} {g g' : DK K} {w : Win}
    (h : Few n g w) {o : Op} (ho : InRange n o.edge) (hq : ∀ e, o = .del e → g.rebuilds S e = false)
    (hr : g.step S o = .ok g') :
    Exact g' (fun e => e ∈ (w.step o).present) ∧ (w.step o).present.Nodup ∧ g'.nv = n := by
  obtain ⟨a1, a2⟩ := h.ex.step hK hF S (by rw [h.nv]; exact ho) hq hr
  obtain ⟨b1, b2⟩ := present_step h.nd o
  exact ⟨⟨a1.inv, fun e => by rw [a1.mem, b2], a1.cnt, a1.above⟩, b1, by rw [a2, h.nv]⟩

/-- A rare deletion triggers no reorganisation. -/
theorem Few.quiet (hK : K.Lawful) (hM : K.MarksOne) {S : Sizing} {X : Nat} (hS : S.Calibrated X) {n : Nat} {g : DK K} {w : Win} (h : Few n g w) {e : Edge}
    (he : InRange n e) (hrare : (w.step (.del e)).Rare) (hsz : w.present.length ≤ X) :
    g.rebuilds S e = false := by
  apply rebuilds_few hK hM S h.ex.inv (by rw [h.nv]; exact he)
  intro k hk
  have hmk := h.few
  have hcnt := h.cnt
  unfold Win.Rare at hrare
  simp only [Win.step] at hrare
  by_cases hm : e ∈ w.present
  · rw [if_pos ((h.ex.mem e).2 hm)] at hk ⊢
    rw [if_pos hm] at hrare
    simp only [List.length_erase_of_mem hm] at hrare
    have hpos := List.length_pos_of_mem hm
    unfold decr
    rw [if_neg (by omega), hcnt]
    exact hS.rare (by omega) (by omega)
  · rw [if_neg (fun hh => hm ((h.ex.mem e).1 hh))] at hk ⊢
    rw [if_neg hm] at hrare
    rw [hcnt]
    exact hS.rare (by omega) hsz

theorem Few.del (hK : K.Lawful) (hF : K.ForcedPure) (hM : K.MarksOne) {S : Sizing} {X : Nat} (hS : S.Calibrated X) {n : Nat} {g : DK K} {w : Win} (h : Few n g w)
    {e : Edge} (he : InRange n e) (hrare : (w.step (.del e)).Rare) (hsz : w.present.length ≤ X) :
    ∃ g', g.delEdge S e = .ok g' ∧ Few n g' (w.step (.del e)) := by
  have hq := h.quiet hK hM hS he hrare hsz
  have he' : InRange g.nv e := by rw [h.nv]; exact he
  obtain ⟨g', b0, _⟩ := h.ex.inv.delEdge_quiet hK S he' hq
  obtain ⟨c1, c2, c3⟩ := h.exact_step hK hF S (o := .del e) he (by rintro _ ⟨⟩; exact hq) b0
  refine ⟨g', b0, c1, c2, c3, hrare, ?_⟩
  have hmk := h.few
  by_cases hl : e ∈ g.c0.live
  · have hmem : e ∈ w.present := (h.ex.mem e).1 (List.mem_append_left _ hl)
    have hks : g'.ks = g.ks := by
      obtain ⟨c, a1, _⟩ := h.ex.inv.c0wf.erase_ok e
      unfold DK.delEdge at b0
      rw [a1] at b0
      simp only [Res.ok_bind, hl, decide_true, if_true, Res.ok.injEq] at b0
      rw [← b0]
    rw [hks]
    simp only [Win.step, if_pos hmem]
    omega
  · have := (delEdge_marks hK hM S h.ex.inv he' hl hq b0).2
    simp only [Win.step]
    by_cases hm : e ∈ w.present
    · rw [if_pos ((h.ex.mem e).2 hm)] at this
      rw [if_pos hm]
      show _ ≤ w.dels + 1
      omega
    · rw [if_neg (fun hh => hm ((h.ex.mem e).1 hh))] at this
      rw [if_neg hm]
      omega

theorem mem_take_mono {α : Type} {l : List α} {a b : Nat} (h : a ≤ b) {x : α} (hx : x ∈ l.take a) : x ∈ l.take b := by
  have : l.take a = (l.take b).take a := by rw [List.take_take, Nat.min_eq_left h]
  rw [this] at hx
  exact List.mem_of_mem_take hx

/-- One call of a settled history. -/
theorem Few.step (hK : K.Lawful) (hF : K.ForcedPure) (hM : K.MarksOne) {S : Sizing} {X : Nat} (hS : S.Calibrated X) {n B M : Nat} (hn : 2 ≤ n) (hMx : M ≤ X)
    (hB : ∀ k, k ≤ M → S.maxsz (max n k) 0 ≤ B) {g : DK K} {w : Win} (h : Few n g w) (hc : Calm B g w)
    (hw : w.present.length ≤ M) {o : Op} (ho : InRange n o.edge)
    (hd : ∀ e, o = .del e → (w.step o).Rare ∧ w.Old B e) :
    ∃ g', g.step S o = .ok g' ∧ Few n g' (w.step o) ∧ Calm B g' (w.step o) := by
  cases o with
  | add e =>
    have he' : InRange g.nv e := by rw [h.nv]; exact ho
    have hrare := h.rare
    unfold Win.Rare at hrare
    have hmk := h.few
    have hcnt := h.cnt
    obtain ⟨g', a1, a2, a3, a4⟩ := addEdge_few hK hF hS.top h.ex.inv h.ex.cnt hc.c0m he'
      (by rw [h.nv, hcnt]; omega)
    obtain ⟨c1, c2, c3⟩ := h.exact_step hK hF S (o := .add e) ho (by rintro _ ⟨⟩) a1
    have hne := NoEmptyTree.addEdge hK hF S h.ex.inv hc.ne he' a1
    refine ⟨g', a1, ⟨c1, c2, c3, ?_, ?_⟩, ?_⟩
    · unfold Win.Rare
      simp only [Win.step]
      split
      · exact hrare
      · simp only [List.length_cons]; omega
    · simp only [Win.step]
      split <;> exact le_trans a3 hmk
    · rcases a4 with ⟨hm, rfl⟩ | ⟨hm, a4⟩
      · have hm' : e ∈ w.present := (h.ex.mem e).1 hm
        simp only [Win.step, if_pos hm']
        exact hc
      · have hm' : e ∉ w.present := fun hh => hm ((h.ex.mem e).2 hh)
        simp only [Win.step, if_neg hm']
        rcases a4 with a4 | ⟨a4, a5⟩
        · exact ⟨a2, by rw [a4]; simp, by rw [a4]; simp, hne⟩
        · refine ⟨a2, ?_, ?_, hne⟩
          · rw [a4, List.length_append, List.length_singleton]
            have := hB w.present.length hw
            rw [h.nv, hcnt] at a5
            omega
          · intro e' he'
            rw [a4] at he' ⊢
            rw [List.length_append, List.length_singleton, List.take_succ_cons]
            rcases List.mem_append.1 he' with h1 | h1
            · exact List.mem_cons_of_mem _ (hc.recent e' h1)
            · simp at h1; rw [h1]; exact List.mem_cons_self
  | del e =>
    obtain ⟨hrare, hold⟩ := hd e rfl
    have he' : InRange g.nv e := by rw [h.nv]; exact ho
    have hl : e ∉ g.c0.live := by
      intro hl
      exact hold ((h.ex.mem e).1 (List.mem_append_left _ hl)) (mem_take_mono hc.len (hc.recent e hl))
    have hsz : w.present.length ≤ X := le_trans hw hMx
    obtain ⟨g', a1, a2⟩ := h.del hK hF hM hS ho hrare hsz
    have hq := h.quiet hK hM hS ho hrare hsz
    obtain ⟨b1, _⟩ := delEdge_marks hK hM S h.ex.inv he' hl hq a1
    refine ⟨g', a1, a2, by rw [b1]; exact hc.c0m, by rw [b1]; exact hc.len, ?_,
      NoEmptyTree.delEdge_quiet hK S h.ex.inv hc.ne he' hq a1⟩
    intro e' he''
    rw [b1] at he'' ⊢
    have hlog : (w.step (.del e)).log = w.log := by simp only [Win.step]; split <;> rfl
    rw [hlog]
    exact hc.recent e' he''

theorem settled_run (hK : K.Lawful) (hF : K.ForcedPure) (hM : K.MarksOne) {S : Sizing} {X : Nat} (hS : S.Calibrated X) {n B M : Nat} (hn : 2 ≤ n)
    (hMx : M ≤ X) (hB : ∀ k, k ≤ M → S.maxsz (max n k) 0 ≤ B) {ops : List Op} :
    Settled n B M ops → ∃ g : DK K, DK.run K S n ops = .ok g ∧ Few n g (Win.run ops) ∧ Calm B g (Win.run ops) ∧
      (Win.run ops).present.length ≤ M := by
  induction ops using List.reverseRecOn with
  | nil =>
    intro _
    have h1 : n ≠ 1 := by omega
    refine ⟨init K S n, ?_, ⟨⟨init_inv _ n, ?_, ?_, init_noneAbove _ n⟩, ?_, rfl, ?_, ?_⟩, ⟨rfl, ?_, ?_, ?_⟩, ?_⟩
    · simp [DK.run, create, runFrom, h1]
    · intro e; simp [init_edges, Win.run]
    · rw [init_edges]; rfl
    · simp [Win.run]
    · simp [Win.Rare, Win.run]
    · show marks K (List.replicate RS none) ≤ _
      rw [marks_replicate]; simp
    · have : (init K S n).edgesOf = [] := init_edges _ _
      unfold edgesOf at this
      rw [(List.append_eq_nil_iff.1 this).1]; simp
    · have : (init K S n).edgesOf = [] := init_edges _ _
      unfold edgesOf at this
      rw [(List.append_eq_nil_iff.1 this).1]; simp
    · intro t ht; simp [init, List.mem_replicate] at ht
    · simp [Win.run]
  | append_singleton ops o ih =>
    intro hs
    obtain ⟨g, h1, h2, h3, h4⟩ := ih hs.of_append
    obtain ⟨a1, a2, a3⟩ := hs ops o [] rfl
    rw [Win.run_snoc] at a2 a3 ⊢
    obtain ⟨g', b1, b2, b3⟩ := h2.step hK hF hM hS hn hMx hB h3 h4 a1 a3
    refine ⟨g', ?_, b2, b3, a2⟩
    rw [run_append, h1]
    show (g.step S o >>= fun g' => runFrom S g' []) = .ok g'
    rw [b1]; rfl

/-! ## C87 adding edges and deleting settled ones -/

/-- What a user of the API expects of a graph with vertices `0..n-1` and edge set `E`. -/
structure Shows (g : DK K) (n : Nat) (E : Edge → Prop) (m : Nat) : Prop where
  nodes : g.numberNodes = n
  edges : g.numberEdges = m
  contains : ∀ e, InRange n e → ∃ b, g.contains e = .ok b ∧ (b = true ↔ E e)
  neighbours : ∀ x, x < n → ∃ l, g.listNeighbour x = .ok l ∧ l.Nodup ∧ ∀ y, y ∈ l ↔ E (x, y)

theorem Few.shows (hK : K.Lawful) {n : Nat} {g : DK K} {ops : List Op} (h : Few n g (Win.run ops)) :
    Shows g n (specMem ops) (Win.run ops).present.length := by
  have hsp := (Win.present_spec ops).2
  refine ⟨h.nv, h.cnt, ?_, ?_⟩
  · intro e he
    refine ⟨_, h.ex.inv.contains_eq hK (by rw [h.nv]; exact he), ?_⟩
    rw [decide_eq_true_iff, h.ex.mem, hsp]
  · intro x hx
    obtain ⟨l, a1, a2, a3⟩ := h.ex.inv.listNeighbour hK h.ex.above (x := x) (by rw [h.nv]; exact hx)
    exact ⟨l, a1, a2, fun y => by rw [a3, h.ex.mem, hsp]⟩

/-- C87 for any calibrated thresholds: a history of additions and deletions in which deletions are rare (one per six edges present) and never name
one of the last `B` inserted edges, `B` being the capacity of the buffer: every call returns, every query agrees with
the set of edges, and so do iterators and algorithms. -/
theorem settled_shows (hK : K.Lawful) (hF : K.ForcedPure) (hM : K.MarksOne) {S : Sizing} {X : Nat} (hS : S.Calibrated X) {n B M : Nat} (hn : 2 ≤ n)
    (hMx : M ≤ X) (hB : ∀ k, k ≤ M → S.maxsz (max n k) 0 ≤ B) {ops : List Op}
    (hs : Settled n B M ops) :
    ∃ g : DK K, DK.run K S n ops = .ok g ∧
      Shows g n (specMem ops) (Win.run ops).present.length ∧
      (n ≤ 9999999 → g.iface.Faithful (specMem ops) ∧ g.iface.Algorithms n (specMem ops)) := by
  obtain ⟨g, h1, h2, h3, _⟩ := settled_run hK hF hM hS hn hMx hB hs
  refine ⟨g, h1, h2.shows hK, fun h9 => ?_⟩
  have hf := DK.faithful_of hK (E := specMem ops) h2.ex.inv h2.ex.above h3.ne h3.c0m (by rw [h2.nv]; omega)
    (by rw [h2.nv]; exact h9) (fun e => by rw [h2.ex.mem, (Win.present_spec ops).2]) h2.ex.cnt
  have hnodes : g.iface.nodes = n := h2.nv
  have := hf.algorithms
  rw [hnodes] at this
  exact ⟨hf, this⟩

/-- The same with the buffer's capacity bounded explicitly: on at least 16 vertices an edge is settled once an eighth of
the graph's size (vertices or edges, whichever is larger) has been inserted after it. -/
theorem settled_eighth (hK : K.Lawful) (hF : K.ForcedPure) (hM : K.MarksOne) {S : Sizing} {X : Nat} (hS : S.Calibrated X) {n M : Nat} (hn : 16 ≤ n)
    (hMx : M ≤ X) {ops : List Op} (hs : Settled n (max n M / 8) M ops) :
    ∃ g : DK K, DK.run K S n ops = .ok g ∧
      Shows g n (specMem ops) (Win.run ops).present.length ∧
      (n ≤ 9999999 → g.iface.Faithful (specMem ops) ∧ g.iface.Algorithms n (specMem ops)) := by
  refine settled_shows hK hF hM hS (by omega) hMx (fun k hk => ?_) hs
  refine le_trans (hS.eighth (by omega)) (Nat.div_le_div_right ?_)
  omega

/-- Saving: such a graph can be saved into an empty directory, and the loaded graph shows the same edges and
compares equal. -/
theorem settled_saved (hK : K.Lawful) (hF : K.ForcedPure) (hM : K.MarksOne) {S : Sizing} {X : Nat} (hS : S.Calibrated X) (E : K2Eq K) {n B M : Nat} (hn : 2 ≤ n)
    (hMx : M ≤ X) (hB : ∀ k, k ≤ M → S.maxsz (max n k) 0 ≤ B) {ops : List Op}
    (hs : Settled n B M ops) :
    ∃ (g : DK K) (d : Dir K) (g' : DK K), DK.run K S n ops = .ok g ∧ g.serialize (Dir.empty K) = .ok d ∧
      (DK.blank K).load S d = .ok g' ∧ Shows g' n (specMem ops) (Win.run ops).present.length ∧
      g.eq E g' = .ok true := by
  obtain ⟨g, h1, h2, h3, _⟩ := settled_run hK hF hM hS hn hMx hB hs
  have ho : OpsInRange n ops := by
    intro o hoo
    obtain ⟨a, b, rfl⟩ := List.append_of_mem hoo
    exact (hs a o b rfl).1
  obtain ⟨d, g', a1, a2, a3, a4, a5, a6, a7, _⟩ := C22_roundtrip_partial hK S S ho h1 h3.c0m E
  have hsh := h2.shows hK
  refine ⟨g, d, g', h1, a1, a2, ⟨by rw [a4]; exact hsh.nodes, by rw [a3]; exact hsh.edges, ?_, ?_⟩, a7⟩
  · intro e he; rw [a6 h2.ex.above]; exact hsh.contains e he
  · intro x hx; rw [a5]; exact hsh.neighbours x hx

/-! ## C88 pruning at the end -/

/-- The deletions `ds` after `ops` are rare throughout. -/
def RarePruning (n : Nat) (ops : List Op) (ds : List Edge) : Prop :=
  ∀ pre e post, ds = pre ++ e :: post → InRange n e ∧ (Win.run (ops ++ (pre ++ [e]).map Op.del)).Rare

/-- The induction behind C88: after such a history any edges may be deleted, the last inserted ones too, as long as deletions stay rare:
every `del_edge` returns and `contains`, `list_neighbour` and the counters agree with the set of edges. -/
theorem prune_rare (hK : K.Lawful) (hF : K.ForcedPure) (hM : K.MarksOne) {S : Sizing} {X : Nat} (hS : S.Calibrated X) {n B M : Nat} (hn : 2 ≤ n)
    (hMx : M ≤ X) (hB : ∀ k, k ≤ M → S.maxsz (max n k) 0 ≤ B) {ops : List Op}
    (hs : Settled n B M ops) {ds : List Edge} (hd : RarePruning n ops ds) :
    ∃ g : DK K, DK.run K S n (ops ++ ds.map Op.del) = .ok g ∧
      Shows g n (specMem (ops ++ ds.map Op.del)) (Win.run (ops ++ ds.map Op.del)).present.length := by
  suffices h : ∃ g : DK K, DK.run K S n (ops ++ ds.map Op.del) = .ok g ∧
      Few n g (Win.run (ops ++ ds.map Op.del)) ∧ (Win.run (ops ++ ds.map Op.del)).present.length ≤ M by
    obtain ⟨g, h1, h2, _⟩ := h
    exact ⟨g, h1, h2.shows hK⟩
  induction ds using List.reverseRecOn with
  | nil =>
    obtain ⟨g, h1, h2, _, h4⟩ := settled_run hK hF hM hS hn hMx hB hs
    exact ⟨g, by simpa using h1, by simpa using h2, by simpa using h4⟩
  | append_singleton ds e ih =>
    obtain ⟨g, h1, h2, h3⟩ := ih (fun pre e' post hh => hd pre e' (post ++ [e]) (by simp [hh]))
    obtain ⟨a1, a2⟩ := hd ds e [] rfl
    rw [List.map_append, ← List.append_assoc] at a2 ⊢
    simp only [List.map_cons, List.map_nil] at a2 ⊢
    rw [Win.run_snoc] at a2 ⊢
    obtain ⟨g', b1, b2⟩ := h2.del hK hF hM hS a1 a2 (le_trans h3 hMx)
    refine ⟨g', ?_, b2, ?_⟩
    · rw [run_append, h1]
      show (g.delEdge S e >>= fun g' => runFrom S g' []) = .ok g'
      rw [b1]; rfl
    · simp only [Win.step]
      split
      · exact le_trans (List.length_erase_le) h3
      · exact h3

/-- Deleting only ever moves edges from `present` to `dels`. -/
theorem prune_counts (w : Win) (ds : List Edge) :
    w.dels ≤ ((ds.map Op.del).foldl Win.step w).dels ∧
    ((ds.map Op.del).foldl Win.step w).dels + ((ds.map Op.del).foldl Win.step w).present.length
      = w.dels + w.present.length := by
  induction ds generalizing w with
  | nil => simp
  | cons e ds ih =>
    simp only [List.map_cons, List.foldl_cons]
    obtain ⟨h1, h2⟩ := ih (w.step (.del e))
    have h3 : w.dels ≤ (w.step (.del e)).dels ∧
        (w.step (.del e)).dels + (w.step (.del e)).present.length = w.dels + w.present.length := by
      simp only [Win.step]
      split
      · rename_i hm
        have := List.length_pos_of_mem hm
        simp only [List.length_erase_of_mem hm]
        omega
      · simp
    omega

theorem RarePruning.of_end {n : Nat} {ops : List Op} {ds : List Edge} (hr : ∀ e ∈ ds, InRange n e)
    (h : (Win.run (ops ++ ds.map Op.del)).Rare) : RarePruning n ops ds := by
  rintro pre e post rfl
  refine ⟨hr e (by simp), ?_⟩
  have h1 : Win.run (ops ++ (pre ++ e :: post).map Op.del) =
      (post.map Op.del).foldl Win.step (Win.run (ops ++ (pre ++ [e]).map Op.del)) := by
    simp [Win.run]
  rw [h1] at h
  obtain ⟨h2, h3⟩ := prune_counts (Win.run (ops ++ (pre ++ [e]).map Op.del)) post
  unfold Win.Rare at h ⊢
  omega

/-- C88 for any calibrated thresholds: after a settled history any edges may be deleted, the last inserted ones too, as long as at the end at most
one edge was deleted for every six still present: every `del_edge` returns and `contains`, `list_neighbour` and the
counters agree with the set of edges. -/
theorem settled_prune (hK : K.Lawful) (hF : K.ForcedPure) (hM : K.MarksOne) {S : Sizing} {X : Nat} (hS : S.Calibrated X) {n B M : Nat} (hn : 2 ≤ n)
    (hMx : M ≤ X) (hB : ∀ k, k ≤ M → S.maxsz (max n k) 0 ≤ B) {ops : List Op}
    (hs : Settled n B M ops) {ds : List Edge} (hd : ∀ e ∈ ds, InRange n e)
    (hr : (Win.run (ops ++ ds.map Op.del)).Rare) :
    ∃ g : DK K, DK.run K S n (ops ++ ds.map Op.del) = .ok g ∧
      Shows g n (specMem (ops ++ ds.map Op.del)) (Win.run (ops ++ ds.map Op.del)).present.length :=
  prune_rare hK hF hM hS hn hMx hB hs (RarePruning.of_end hd hr)

theorem settled_inserts {n B M : Nat} {es : List Edge} (hes : ∀ e ∈ es, InRange n e)
    (hM : es.toFinset.card ≤ M) : Settled n B M (es.map Op.add) := by
  intro pre o post hh
  have ho : o ∈ es.map Op.add := by rw [hh]; simp
  obtain ⟨e, he, rfl⟩ := List.mem_map.1 ho
  refine ⟨hes e he, ?_, by rintro _ ⟨⟩⟩
  obtain ⟨h1, h2⟩ := Win.present_spec (pre ++ [Op.add e])
  refine le_trans ?_ hM
  rw [← List.toFinset_card_of_nodup h1]
  apply Finset.card_le_card
  intro e' he'
  rw [List.mem_toFinset, h2] at he'
  obtain ⟨p, q, hpq, _⟩ := he'
  have : Op.add e' ∈ es.map Op.add := by
    rw [hh, show pre ++ Op.add e :: post = (pre ++ [Op.add e]) ++ post by simp, hpq]; simp
  obtain ⟨e'', h3, h4⟩ := List.mem_map.1 this
  cases h4
  exact List.mem_toFinset.2 h3

theorem mem_build_prune (es ds : List Edge) (e : Edge) :
    specMem (es.map Op.add ++ ds.map Op.del) e ↔ e ∈ es ∧ e ∉ ds := by
  rw [specMem_iff_specRun]
  induction ds using List.reverseRecOn with
  | nil =>
    simp only [List.map_nil, List.append_nil, List.not_mem_nil, not_false_eq_true, and_true]
    exact specRun_inserts es e
  | append_singleton ds a ih =>
    rw [List.map_append, ← List.append_assoc]
    simp only [List.map_cons, List.map_nil]
    rw [specRun_concat]
    show e ≠ a ∧ _ ↔ _
    rw [ih]
    simp only [List.mem_append, List.mem_singleton, not_or]
    tauto

/-- C88 for the plainest case: build a graph of at most `2^64` edges, then delete up to one seventh of them. -/
theorem build_prune_shows (hK : K.Lawful) (hF : K.ForcedPure) (hM : K.MarksOne) {S : Sizing} {X : Nat} (hS : S.Calibrated X) {n : Nat} (hn : 2 ≤ n)
    {es ds : List Edge} (hes : ∀ e ∈ es, InRange n e) (hds : ∀ e ∈ ds, InRange n e)
    (hsz : es.toFinset.card ≤ X) (hr : 6 * (es.toFinset ∩ ds.toFinset).card ≤ (es.toFinset \ ds.toFinset).card) :
    ∃ g : DK K, DK.run K S n (es.map Op.add ++ ds.map Op.del) = .ok g ∧
      Shows g n (fun e => e ∈ es ∧ e ∉ ds) (es.toFinset \ ds.toFinset).card := by
  have hB : ∀ k, k ≤ X → S.maxsz (max n k) 0 ≤
      (Finset.range (X + 1)).sup (fun k => S.maxsz (max n k) 0) := by
    intro k hk
    exact Finset.le_sup (f := fun k => S.maxsz (max n k) 0) (Finset.mem_range.2 (by omega))
  obtain ⟨p1, p2⟩ := Win.present_spec (es.map Op.add ++ ds.map Op.del)
  have hcard : (Win.run (es.map Op.add ++ ds.map Op.del)).present.length = (es.toFinset \ ds.toFinset).card := by
    rw [← List.toFinset_card_of_nodup p1]
    congr 1
    ext e
    rw [List.mem_toFinset, p2, mem_build_prune]
    simp
  obtain ⟨q1, q2⟩ := Win.present_spec (es.map Op.add)
  have hcard0 : (Win.run (es.map Op.add)).present.length = es.toFinset.card := by
    rw [← List.toFinset_card_of_nodup q1]
    congr 1
    ext e
    have := mem_build_prune es [] e
    simp only [List.map_nil, List.append_nil, List.not_mem_nil, not_false_eq_true, and_true] at this
    rw [List.mem_toFinset, q2, this, List.mem_toFinset]
  have hdels0 : (Win.run (es.map Op.add)).dels = 0 := by
    clear * -
    induction es using List.reverseRecOn with
    | nil => rfl
    | append_singleton es e ih =>
      rw [List.map_append]
      simp only [List.map_cons, List.map_nil]
      rw [Win.run_snoc]
      simp only [Win.step]
      split <;> exact ih
  have hcnt := (prune_counts (Win.run (es.map Op.add)) ds).2
  have hrun : Win.run (es.map Op.add ++ ds.map Op.del) = (ds.map Op.del).foldl Win.step (Win.run (es.map Op.add)) := by
    simp [Win.run]
  rw [← hrun, hcard, hcard0, hdels0] at hcnt
  have hsplit := Finset.card_inter_add_card_sdiff es.toFinset ds.toFinset
  obtain ⟨g, h1, h2⟩ := settled_prune hK hF hM hS hn (le_refl _) hB
    (settled_inserts (B := (Finset.range (X + 1)).sup (fun k => S.maxsz (max n k) 0)) hes hsz)
    hds (by unfold Win.Rare; rw [hcard]; omega)
  rw [hcard] at h2
  have : specMem (es.map Op.add ++ ds.map Op.del) = fun e => e ∈ es ∧ e ∉ ds := by
    funext e; exact propext (mem_build_prune es ds e)
  rw [this] at h2
  exact ⟨g, h1, h2⟩

/-! ## C87, C88: the formulas of the code over the reals -/

/-- C87: a history of additions and deletions in which deletions are rare (one per six edges present) and never name
one of the last `B` inserted edges, `B` being the capacity of the buffer: every call returns, every query agrees with
the set of edges, and so do iterators and algorithms. -/
theorem C87_settled (hK : K.Lawful) (hF : K.ForcedPure) (hM : K.MarksOne) {n B M : Nat} (hn : 2 ≤ n)
    (hMx : M ≤ 2 ^ 64) (hB : ∀ k, k ≤ M → realSizing.maxsz (max n k) 0 ≤ B) {ops : List Op}
    (hs : Settled n B M ops) :
    ∃ g : DK K, DK.run K realSizing n ops = .ok g ∧
      Shows g n (specMem ops) (Win.run ops).present.length ∧
      (n ≤ 9999999 → g.iface.Faithful (specMem ops) ∧ g.iface.Algorithms n (specMem ops)) :=
  settled_shows hK hF hM realSizing_calibrated hn hMx hB hs

/-- C87 with the buffer's capacity bounded explicitly: on at least 16 vertices an edge is settled once an eighth of
the graph's size (vertices or edges, whichever is larger) has been inserted after it. -/
theorem C87_eighth (hK : K.Lawful) (hF : K.ForcedPure) (hM : K.MarksOne) {n M : Nat} (hn : 16 ≤ n)
    (hMx : M ≤ 2 ^ 64) {ops : List Op} (hs : Settled n (max n M / 8) M ops) :
    ∃ g : DK K, DK.run K realSizing n ops = .ok g ∧
      Shows g n (specMem ops) (Win.run ops).present.length ∧
      (n ≤ 9999999 → g.iface.Faithful (specMem ops) ∧ g.iface.Algorithms n (specMem ops)) :=
  settled_eighth hK hF hM realSizing_calibrated hn hMx hs

/-- C87, saving: such a graph can be saved into an empty directory, and the loaded graph shows the same edges and
compares equal. -/
theorem C87_saved (hK : K.Lawful) (hF : K.ForcedPure) (hM : K.MarksOne) (E : K2Eq K) {n B M : Nat} (hn : 2 ≤ n)
    (hMx : M ≤ 2 ^ 64) (hB : ∀ k, k ≤ M → realSizing.maxsz (max n k) 0 ≤ B) {ops : List Op}
    (hs : Settled n B M ops) :
    ∃ (g : DK K) (d : Dir K) (g' : DK K), DK.run K realSizing n ops = .ok g ∧ g.serialize (Dir.empty K) = .ok d ∧
      (DK.blank K).load realSizing d = .ok g' ∧ Shows g' n (specMem ops) (Win.run ops).present.length ∧
      g.eq E g' = .ok true :=
  settled_saved hK hF hM realSizing_calibrated E hn hMx hB hs

/-- C88: after a settled history any edges may be deleted, the last inserted ones too, as long as at the end at most
one edge was deleted for every six still present: every `del_edge` returns and `contains`, `list_neighbour` and the
counters agree with the set of edges. -/
theorem C88_prune (hK : K.Lawful) (hF : K.ForcedPure) (hM : K.MarksOne) {n B M : Nat} (hn : 2 ≤ n)
    (hMx : M ≤ 2 ^ 64) (hB : ∀ k, k ≤ M → realSizing.maxsz (max n k) 0 ≤ B) {ops : List Op}
    (hs : Settled n B M ops) {ds : List Edge} (hd : ∀ e ∈ ds, InRange n e)
    (hr : (Win.run (ops ++ ds.map Op.del)).Rare) :
    ∃ g : DK K, DK.run K realSizing n (ops ++ ds.map Op.del) = .ok g ∧
      Shows g n (specMem (ops ++ ds.map Op.del)) (Win.run (ops ++ ds.map Op.del)).present.length :=
  settled_prune hK hF hM realSizing_calibrated hn hMx hB hs hd hr

/-- C88 for the plainest case: build a graph of at most `2^64` edges, then delete up to one seventh of them. -/
theorem C88_build_prune (hK : K.Lawful) (hF : K.ForcedPure) (hM : K.MarksOne) {n : Nat} (hn : 2 ≤ n)
    {es ds : List Edge} (hes : ∀ e ∈ es, InRange n e) (hds : ∀ e ∈ ds, InRange n e)
    (hsz : es.toFinset.card ≤ 2 ^ 64) (hr : 6 * (es.toFinset ∩ ds.toFinset).card ≤ (es.toFinset \ ds.toFinset).card) :
    ∃ g : DK K, DK.run K realSizing n (es.map Op.add ++ ds.map Op.del) = .ok g ∧
      Shows g n (fun e => e ∈ es ∧ e ∉ ds) (es.toFinset \ ds.toFinset).card :=
  build_prune_shows hK hF hM realSizing_calibrated hn hes hds hsz hr

/-! ## Instances -/

/-- A decision procedure for `Settled`. -/
def settledFrom (n B M : Nat) (w : Win) : List Op → Bool
  | [] => true
  | o :: os => decide (InRange n o.edge) && decide ((w.step o).present.length ≤ M) &&
      (match o with
        | .add _ => true
        | .del e => decide (6 * (w.step o).dels ≤ (w.step o).present.length) &&
            (decide (e ∉ w.present) || decide (e ∉ w.log.take B))) &&
      settledFrom n B M (w.step o) os

theorem settled_of_check {n B M : Nat} {ops : List Op} (h : settledFrom n B M ⟨[], [], 0⟩ ops = true) :
    Settled n B M ops := by
  have key : ∀ (os : List Op) (w : Win), settledFrom n B M w os = true → ∀ pre o post, os = pre ++ o :: post →
      InRange n o.edge ∧ ((pre ++ [o]).foldl Win.step w).present.length ≤ M ∧
      ∀ e, o = .del e → ((pre ++ [o]).foldl Win.step w).Rare ∧ (pre.foldl Win.step w).Old B e := by
    intro os
    induction os with
    | nil => intro w _ pre o post hh; simp at hh
    | cons o' os ih =>
      intro w hc pre o post hh
      simp only [settledFrom, Bool.and_eq_true, decide_eq_true_eq] at hc
      obtain ⟨⟨⟨c1, c2⟩, c3⟩, c4⟩ := hc
      cases pre with
      | nil =>
        simp only [List.nil_append, List.cons.injEq] at hh
        obtain ⟨rfl, rfl⟩ := hh
        refine ⟨c1, c2, ?_⟩
        rintro e rfl
        simp only [Bool.and_eq_true, decide_eq_true_eq, Bool.or_eq_true] at c3
        exact ⟨c3.1, fun hp => c3.2.resolve_left (fun h => h hp)⟩
      | cons p pre =>
        simp only [List.cons_append, List.cons.injEq] at hh
        obtain ⟨rfl, rfl⟩ := hh
        exact ih _ c4 pre o post rfl
  exact key ops _ h

/-- All 16 edges on 4 vertices, two settled ones deleted on the way, one of them inserted again; then
a recent edge is deleted. -/
def wSettled : List Op :=
  ([(0, 0), (0, 1), (0, 2), (0, 3), (1, 0), (1, 1), (1, 2), (1, 3), (2, 0), (2, 1)].map Op.add) ++ [.del (0, 2)] ++
    ([(2, 2), (2, 3), (3, 0), (3, 1), (3, 2)].map Op.add) ++ [.del (1, 1), .add (0, 2), .del (1, 1), .add (3, 3)]

theorem tab_cap : ∀ k, k ≤ 16 → realSizing.maxsz (max 4 k) 0 ≤ 2 := by
  intro k hk
  have h1 := realSizing_eq_hyb
  rw [h1]
  have h : ∀ k ∈ List.range 17, hybSizing.maxsz (max 4 k) 0 ≤ 2 := by decide +kernel
  exact h k (List.mem_range.2 (by omega))

/-- C87's hypotheses hold of `wSettled`, whose deletions hit edges held in levels, `(1,1)` among them. -/
example : Settled 4 2 16 wSettled := settled_of_check (by decide +kernel)

example : ∃ g : DK refK2, DK.run refK2 realSizing 4 wSettled = .ok g ∧
    g.numberEdges = 15 ∧ g.contains (1, 1) = .ok false ∧ g.contains (0, 2) = .ok true := by
  obtain ⟨g, h1, h2, _⟩ := C87_settled refK2_lawful refK2_forcedPure refK2_marksOne (by norm_num) (by norm_num) tab_cap
    (settled_of_check (ops := wSettled) (by decide +kernel))
  refine ⟨g, h1, ?_, ?_, ?_⟩
  · rw [h2.edges]; decide +kernel
  · obtain ⟨b, hb, hb'⟩ := h2.contains (1, 1) (by decide)
    cases b with
    | false => exact hb
    | true => exact absurd ((Win.present_spec wSettled).2 _ |>.2 (hb'.1 rfl)) (by decide +kernel)
  · obtain ⟨b, hb, hb'⟩ := h2.contains (0, 2) (by decide)
    rw [hb'.2 (((Win.present_spec wSettled).2 _).1 (by decide +kernel))] at hb
    exact hb

/-- Bit-encoded trees satisfy the extra contract too, so C87 and C88 hold of graphs over them. -/
example (k : Nat) (H : Nat → Nat) : (bitK2 k H).MarksOne := bitK2_marksOne k H

/-- C88's hypotheses: the last inserted edge and one held in a level are deleted from 14 edges. -/
example : ∃ g : DK refK2, DK.run refK2 realSizing 4
    (([(0, 0), (0, 1), (0, 2), (0, 3), (1, 0), (1, 1), (1, 2), (1, 3), (2, 0), (2, 1), (2, 2), (2, 3), (3, 0),
      (3, 1)].map Op.add) ++ [(3, 1), (0, 0)].map Op.del) = .ok g ∧ g.numberEdges = 12 := by
  obtain ⟨g, h1, h2⟩ := C88_build_prune (K := refK2) refK2_lawful refK2_forcedPure refK2_marksOne (n := 4)
    (es := [(0, 0), (0, 1), (0, 2), (0, 3), (1, 0), (1, 1), (1, 2), (1, 3), (2, 0), (2, 1), (2, 2), (2, 3), (3, 0),
      (3, 1)]) (ds := [(3, 1), (0, 0)]) (by norm_num) (by decide) (by decide)
    (le_trans (List.toFinset_card_le _) (by simp)) (by decide +kernel)
  exact ⟨g, h1, by rw [h2.edges]; decide +kernel⟩

/-- Nine insertions on 5 vertices, the last inserted edge is deleted, another one inserted. -/
def wRecent : List Op :=
  ([(0, 0), (0, 1), (0, 2), (0, 3), (1, 0), (1, 1), (1, 2), (1, 3), (2, 0)].map Op.add) ++ [.del (2, 0), .add (3, 2)]

/-- C87 without the restriction to settled edges (`B = 0`) is false: one rare deletion of a recent edge makes the next
insertion write out of bounds. -/
theorem C87_recent_refuted : Settled 5 0 16 wRecent ∧ DK.run refK2 realSizing 5 wRecent = .ub := by
  refine ⟨settled_of_check (by decide +kernel), ?_⟩
  rw [real_run (by decide), ← outcome_ub]
  decide +kernel

end DK2
