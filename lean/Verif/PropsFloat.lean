import Verif.PropsPruneDelay
import Verif.PropsProg
import Verif.PropsIter
import Verif.PropsGraph2
import Verif.VarAlgo
import Verif.PropsEdgeDel
import Verif.Restart
/-!
# C91: the theorems survive floating-point rounding of the thresholds

`floatSizing A` evaluates `MAXSZ` and the rebuild test with the floating-point library `A`.  Nothing is assumed of `A` but
`A.Accurate`: relative error at most `2^-40`, integer results exact.
-/

namespace DK2

open DK

variable {K : K2Impl}

/-- Below 36 vertices and edges, the computed thresholds are those of exact arithmetic. -/
theorem agree_real_float {A : FloatLib} (hA : A.Accurate) : Agree realSizing (floatSizing A) 2 35 where
  maxsz _ _ h1 h2 h3 := (fhyb_maxsz hA h1 (by omega) (Nat.lt_succ_of_le h3)).symm
  rebuild _ k h := (fhyb_rebuild hA (by omega) k).symm

theorem agree_tab_float {A : FloatLib} (hA : A.Accurate) : Agree tabSizing (floatSizing A) 2 17 where
  maxsz _ _ h1 h2 h3 := by rw [tab_maxsz h1 h2 h3, fhyb_maxsz hA h1 (by omega) (Nat.lt_succ_of_le h3)]
  rebuild _ k h := by rw [tab_rebuild h, fhyb_rebuild hA (by omega)]

/-- C91, small graphs: on at most 35 vertices and with at most 36 calls, a history of additions and deletions runs exactly
as with exact thresholds: the same graph, or the same failure. -/
theorem C91_small (hK : K.Lawful) (hF : K.ForcedPure) {A : FloatLib} (hA : A.Accurate) {n : Nat} (h1 : 2 ≤ n)
    (h2 : n ≤ 35) {ops : List Op} (hl : ops.length ≤ 36) (hops : OpsInRange n ops) :
    DK.run K (floatSizing A) n ops = DK.run K realSizing n ops := by
  have ha := agree_real_float hA
  have hc : (DK.init K (floatSizing A) n) = (DK.init K realSizing n) := by
    unfold DK.init C0.new
    rw [ha.maxsz _ _ h1 h2 (by omega)]
  unfold DK.run DK.create
  rw [if_neg (by omega), if_neg (by omega), hc]
  simp only [Res.ok_bind]
  symm
  refine runFrom_congr hK hF ha ops (g := DK.init K realSizing n) (G := fun _ => False)
    ⟨init_inv _ n, ?_, ?_, ?_⟩ h1 h2 h1 ?_ hops
  · intro e _; simp [init_edges]
  · intro h; simp [init_edges] at h
  · simp [init_edges]
  · show 0 + _ ≤ _; omega

/-- C91, insertions into a `DKtree`: every insertion returns, every query answers for exactly the inserted edges, and so do
iterators and algorithms; any number of vertices and edges. -/
theorem C91_insert (hK : K.Lawful) (hF : K.ForcedPure) {A : FloatLib} (hA : A.Accurate) {n : Nat} (h2 : 2 ≤ n)
    {es : List Edge} (hes : ∀ e ∈ es, InRange n e) :
    ∃ g : DK K, DK.run K (floatSizing A) n (es.map Op.add) = .ok g ∧
      Shows g n (fun e => e ∈ es) es.toFinset.card ∧
      (n ≤ 9999999 → g.iface.Faithful (fun e => e ∈ es) ∧ g.iface.Algorithms n (fun e => e ∈ es)) := by
  obtain ⟨g, h1, hf, h3, h4⟩ := DK.run_inserts hK hF (floatSizing_top hA) h2 hes
  have ho : OpsInRange n (inserts es) := by
    intro o hoo
    obtain ⟨e, he, rfl⟩ := List.mem_map.1 hoo
    exact hes e he
  refine ⟨g, h1, ⟨h3, ?_, ?_, ?_⟩, fun hn => ?_⟩
  · show g.nTotal = _
    rw [h4.cnt, List.card_toFinset]
    exact length_eq_of_mem_iff h4.inv.nodup es.nodup_dedup (fun e => by rw [h4.mem, List.mem_dedup])
  · intro e he
    refine ⟨_, h4.inv.contains_eq hK (by rw [h3]; exact he), ?_⟩
    rw [decide_eq_true_iff, h4.mem]
  · intro x hx
    obtain ⟨l, a1, a2, a3⟩ := h4.inv.listNeighbour hK h4.above (x := x) (by rw [h3]; exact hx)
    exact ⟨l, a1, a2, fun y => by rw [a3, h4.mem]⟩
  · have hfa := iface_faithful hK hF (floatSizing A) (by omega) hn ho (inserts_quiet _ _ _) h1 hf.c0m
    have hE : (specMem (inserts es)) = (fun e => e ∈ es) := by
      funext e
      apply propext
      rw [specMem_iff_specRun, specRun_inserts]
    rw [hE] at hfa
    have hnodes : g.iface.nodes = n := h3
    exact ⟨hfa, hnodes ▸ hfa.algorithms⟩

/-- C91 for C86: every legal client program of many graphs, unions, copies, saves and loads runs to its end, and every
answer on the way is right. -/
theorem C91_program (hK : K.Lawful) (hF : K.ForcedPure) {A : FloatLib} (hA : A.Accurate) (p : UProg)
    (hp : p.Legal SState.init) :
    ∃ w tr, (PState.init K).run (floatSizing A) p = .ok (w, tr) ∧ SState.init.RightAll tr := by
  obtain ⟨w, tr, h1, h2, _⟩ := PState.Sim.run hK hF (floatSizing_top hA) p PState.Sim.init hp
  exact ⟨w, tr, h1, h2⟩

/-- C91 for C87: rare deletions of settled edges, fewer than `2^52` edges. -/
theorem C91_settled (hK : K.Lawful) (hF : K.ForcedPure) (hM : K.MarksOne) {A : FloatLib} (hA : A.Accurate) {n M : Nat}
    (hn : 16 ≤ n) (hMx : M < 2 ^ 52) {ops : List Op} (hs : Settled n (max n M / 8) M ops) :
    ∃ g : DK K, DK.run K (floatSizing A) n ops = .ok g ∧
      Shows g n (specMem ops) (Win.run ops).present.length ∧
      (n ≤ 9999999 → g.iface.Faithful (specMem ops) ∧ g.iface.Algorithms n (specMem ops)) :=
  settled_eighth hK hF hM (floatSizing_calibrated hA) hn (Nat.le_sub_one_of_lt hMx) hs

/-- C91 for C88: build a graph of fewer than `2^52` edges, then delete up to one seventh of them. -/
theorem C91_prune (hK : K.Lawful) (hF : K.ForcedPure) (hM : K.MarksOne) {A : FloatLib} (hA : A.Accurate) {n : Nat}
    (hn : 2 ≤ n) {es ds : List Edge} (hes : ∀ e ∈ es, InRange n e) (hds : ∀ e ∈ ds, InRange n e)
    (hsz : es.toFinset.card < 2 ^ 52)
    (hr : 6 * (es.toFinset ∩ ds.toFinset).card ≤ (es.toFinset \ ds.toFinset).card) :
    ∃ g : DK K, DK.run K (floatSizing A) n (es.map Op.add ++ ds.map Op.del) = .ok g ∧
      Shows g n (fun e => e ∈ es ∧ e ∉ ds) (es.toFinset \ ds.toFinset).card :=
  build_prune_shows hK hF hM (floatSizing_calibrated hA) hn hes hds (Nat.le_sub_one_of_lt hsz) hr

/-- C91 for C93: a settled history with restarts anywhere, below `2^52` edges. -/
theorem C91_restart (hK : K.Lawful) (hF : K.ForcedPure) (hM : K.MarksOne) {A : FloatLib} (hA : A.Accurate) {n B M : Nat}
    (hn : 2 ≤ n) (hMx : M < 2 ^ 52) (hB : ∀ k, k ≤ M → (floatSizing A).maxsz (max n k) 0 ≤ B) {cs : List SCmd}
    (hs : Settled n B M (SCmd.calls cs)) :
    ∃ g : DK K, DK.session K (floatSizing A) n cs = .ok (g, Dir.empty K) ∧
      Shows g n (specMem (SCmd.calls cs)) (Win.run (SCmd.calls cs)).present.length ∧
      (n ≤ 9999999 → g.iface.Faithful (specMem (SCmd.calls cs)) ∧ g.iface.Algorithms n (specMem (SCmd.calls cs))) :=
  session_shows hK hF hM (floatSizing_calibrated hA) hn (Nat.le_sub_one_of_lt hMx) hB hs

/-- C91 for C92: build a graph of fewer than `2^52` edges, then delete inside an edge loop the edges that satisfy `p`, at
most one in seven. -/
theorem C91_loop (hK : K.Lawful) (hF : K.ForcedPure) (hM : K.MarksOne) (hO : K.KeepsOrder) {A : FloatLib} (hA : A.Accurate)
    {n : Nat} (hn : 2 ≤ n) (h9 : n ≤ 9999999) {es : List Edge} (hes : ∀ e ∈ es, InRange n e)
    (hsz : es.toFinset.card < 2 ^ 52) (p : Edge → Bool)
    (hp : 7 * (es.toFinset.filter (fun e => p e = true)).card ≤ es.toFinset.card) (nd : Bool) :
    ∃ r : Heap K × HG, HG.run K (floatSizing A) n (es.map Op.add) = .ok r ∧ ∀ look fuel, es.toFinset.card < fuel →
      ∃ l r', HG.dFor nd (floatSizing A) (delBody fun _ e => if p e then [e] else []) look fuel r = .ok (l, r') ∧
        l.Nodup ∧ (∀ e, e ∈ l ↔ e ∈ es) ∧
        HShows r' n (fun e => e ∈ es ∧ p e = false) (es.toFinset.filter (fun e => p e = false)).card :=
  filter_loop hK hF hM hO (floatSizing_calibrated hA) hn h9 hes (Nat.le_sub_one_of_lt hsz) p hp nd

/-- C91 for C32 and C63: `DKtree_delay` on at least 162 vertices, in both builds: every insertion history returns and
shows exactly its edges. -/
theorem C91_delay (hK : K.Lawful) {A : FloatLib} (hA : A.Accurate) (nd : Bool) {n : Nat} (h2 : 162 ≤ n)
    {es : List Edge} (hes : ∀ e ∈ es, InRange n e) :
    ∃ d : DKD K, DKD.run nd K (floatSizing A) n (es.map Op.add) = .ok d ∧ d.Answers n (fun e => e ∈ es) ∧
      (n ≤ 9999999 → d.g.iface.Faithful (fun e => e ∈ es) ∧ d.g.iface.Algorithms n (fun e => e ∈ es)) := by
  have hc := floatSizing_calibrated hA
  obtain ⟨d, h3, h4⟩ := DKD.large_answers hK hc.top hc.cap6 nd h2 hes
  refine ⟨d, h3, h4, fun hn => ?_⟩
  obtain ⟨d', h5, h6⟩ := DKD.inserts_large hK hc.top hc.cap6 nd h2 hn hes
  rw [h3] at h5
  cases h5
  exact h6

/-- C91 for C89: `DKtree_delay` on at least 162 vertices, rare deletions of settled edges, fewer than `2^52` edges. -/
theorem C91_delay_settled (hK : K.Lawful) (hM : K.MarksOne) {A : FloatLib} (hA : A.Accurate) {n M : Nat} (hn : 162 ≤ n)
    (hMx : M < 2 ^ 52) {ops : List Op} (hs : Settled n (max n M / 8) M ops) :
    ∃ d : DKD K, (∀ nd, DKD.run nd K (floatSizing A) n ops = .ok d) ∧
      d.Shows n (specMem ops) (Win.run ops).present.length ∧
      (n ≤ 9999999 → d.g.iface.Faithful (specMem ops) ∧ d.g.iface.Algorithms n (specMem ops)) :=
  DKD.settled_eighth hK (floatSizing_calibrated hA) hM hn (Nat.le_sub_one_of_lt hMx) hs

/-- C91 for C90: such a history, then deletions of any edges, at the end one edge deleted for every six still present. -/
theorem C91_delay_prune (hK : K.Lawful) (hM : K.MarksOne) {A : FloatLib} (hA : A.Accurate) {n M : Nat} (hn : 162 ≤ n)
    (hMx : M < 2 ^ 52) {ops : List Op} (hs : Settled n (max n M / 8) M ops)
    {ds : List Edge} (hd : ∀ e ∈ ds, InRange n e) (hr : (Win.run (ops ++ ds.map Op.del)).Rare) (nd : Bool) :
    ∃ d : DKD K, DKD.run nd K (floatSizing A) n (ops ++ ds.map Op.del) = .ok d ∧
      d.Shows n (specMem (ops ++ ds.map Op.del)) (Win.run (ops ++ ds.map Op.del)).present.length :=
  DKD.settled_prune hK (floatSizing_calibrated hA) hM hn (Nat.le_sub_one_of_lt hMx)
    (by have : 162 ≤ max n M := le_trans hn (le_max_left _ _); omega)
    (fun k hk => le_trans ((floatSizing_calibrated hA).eighth (by omega)) (by omega)) hs hd hr nd

/-- C91, the defects: no accurate library hides them; the refutations of the graph properties hold for it as for exact
arithmetic. -/
theorem C91_defects {A : FloatLib} (hA : A.Accurate) :
    ¬ C01_Full (floatSizing A) ∧ ¬ C03_Full (floatSizing A) ∧ ¬ C05_Full (floatSizing A) ∧
    ¬ C06_del_Full (floatSizing A) ∧ ¬ C07_Full (floatSizing A) ∧ ¬ C10_Full (floatSizing A) ∧
    ¬ C10_twice_Full (floatSizing A) ∧ ¬ C12_Full (floatSizing A) ∧ ¬ C13_Full (floatSizing A) ∧
    ¬ C15_del_add_Full (floatSizing A) ∧ ¬ C16_Full (floatSizing A) ∧ ¬ C42_Full (floatSizing A) ∧
    ¬ C45_Full (floatSizing A) := by
  have h := agree_tab_float hA
  exact ⟨C01_refuted_of h, C03_refuted_of h, C05_refuted_of h, C06_del_refuted_of h, C07_refuted_of h, C10_refuted_of h,
    C10_twice_refuted_of h, C12_refuted_of h, C13_refuted_of h, C15_del_add_refuted_of h, C16_refuted_of h,
    C42_refuted_of h, C45_refuted_of h⟩

/-! ## Instances -/

/-- The hypothesis is met by a library that rounds, and by exact arithmetic. -/
example : skewLib.Accurate ∧ exactLib.Accurate := ⟨skewLib_accurate, exactLib_accurate⟩

/-- C91_settled's and C91_delay_settled's hypotheses hold of `wSettledD` (on 162 vertices). -/
example (nd : Bool) : ∃ d : DKD refK2, DKD.run nd refK2 (floatSizing skewLib) 162 wSettledD = .ok d ∧ d.numberEdges = 30 := by
  obtain ⟨d, h1, h2, _⟩ := C91_delay_settled (K := refK2) refK2_lawful refK2_marksOne skewLib_accurate (n := 162) (M := 64)
    (by norm_num) (by norm_num) (settled_of_check (ops := wSettledD) (by decide +kernel))
  exact ⟨d, h1 nd, by rw [h2.edges]; decide +kernel⟩

example : ∃ g : DK refK2, DK.run refK2 (floatSizing skewLib) 162 wSettledD = .ok g ∧ g.numberEdges = 30 := by
  obtain ⟨g, h1, h2, _⟩ := C91_settled (K := refK2) refK2_lawful refK2_forcedPure refK2_marksOne skewLib_accurate (n := 162)
    (M := 64) (by norm_num) (by norm_num) (settled_of_check (ops := wSettledD) (by decide +kernel))
  exact ⟨g, h1, by rw [h2.edges]; decide +kernel⟩

/-- The failing history of C87 fails under a rounding library too. -/
example : DK.run refK2 (floatSizing skewLib) 5 wRecent = .ub := by
  rw [C91_small refK2_lawful refK2_forcedPure skewLib_accurate (by norm_num) (by norm_num) (by decide) (by decide)]
  exact C87_recent_refuted.2

end DK2
