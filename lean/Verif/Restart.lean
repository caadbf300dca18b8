import Verif.PropsPrune
import Verif.PropsSer
/-!
# C93: saving and loading in the middle of a history with deletions
-/

namespace DK2
variable {K : K2Impl}

/-- A command of a session: a call, or a restart: save the graph, drop it, and load it into a new object; either through
one directory that `load` clears (`cycle`), or through a new directory (`fresh`). -/
inductive SCmd
  | call (o : Op)
  | cycle
  | fresh

/-- The calls of a session. -/
def SCmd.calls (cs : List SCmd) : List Op := cs.filterMap fun | .call o => some o | _ => none

namespace DK

/-- One command; the state is the object and the directory.  `serialize` (DKtree.hpp:341-371), `load` (373-398),
`DKtree()` (63). -/
def sess1 (S : Sizing) (s : DK K × Dir K) : SCmd → Res (DK K × Dir K)
  | .call o => do
    let g ← s.1.step S o
    .ok (g, s.2)
  | .cycle => do
    let d ← s.1.serialize s.2
    (DK.blank K).loadClear S d
  | .fresh => do
    let d ← s.1.serialize (Dir.empty K)
    let g ← (DK.blank K).load S d
    .ok (g, s.2)

/-- A session on a graph built by `DKtree(n)`, with an empty directory. -/
def sessFrom (S : Sizing) : DK K × Dir K → List SCmd → Res (DK K × Dir K)
  | s, [] => .ok s
  | s, c :: cs => do
    let s' ← sess1 S s c
    sessFrom S s' cs

/-- The whole session. -/
def session (K : K2Impl) (S : Sizing) (n : Nat) (cs : List SCmd) : Res (DK K × Dir K) := do
  let g ← create K S n
  sessFrom S (g, Dir.empty K) cs

/-- What a restart keeps. -/
structure Restarted (g g' : DK K) : Prop where
  maxR : g'.maxR = g.maxR
  nv : g'.nv = g.nv
  nTotal : g'.nTotal = g.nTotal
  ks : g'.ks = g.ks
  wf : g'.c0.WF
  live : g'.c0.live = g.c0.live
  c0m : g'.c0.marked = 0
  c0nv : g'.c0.nVertices = g.c0.nVertices

theorem restart_ok (S : Sizing) {g : DK K} (hw : g.WInv) (ha : g.NoneAbove) (hm : g.c0.marked = 0) :
    ∃ d g', g.serialize (Dir.empty K) = .ok d ∧ (DK.blank K).load S d = .ok g' ∧ Restarted g g' := by
  have hb : (DK.blank K).ks = List.replicate RS none := rfl
  obtain ⟨c, a1, a2, a3, a4, _, a6⟩ := load_ok (S := S) hw
    (d := ⟨some ⟨g.maxR, g.nv, g.nTotal, g.c0.nVertices, g.c0.maxEdges, g.c0.live⟩, g.writeLevels (Dir.empty K)⟩)
    (x := DK.blank K) (by rw [hb]; simp) hm rfl
  refine ⟨_, _, serialize_ok hw _ hm, a1, ⟨rfl, rfl, rfl, ?_, a2, a3, a4, a6⟩⟩
  apply List.ext_getElem?
  intro l
  show (readLevels _ g.maxR (DK.blank K).ks)[l]? = _
  rw [readLevels_getElem?, hb, List.getElem?_replicate]
  by_cases hl : l < RS
  · have hlk : l < g.ks.length := by rw [hw.len]; exact hl
    rw [if_pos hl, List.getElem?_eq_getElem hlk]
    simp only [Option.map_some]
    congr 1
    by_cases hle : l ≤ g.maxR
    · rw [if_pos hle]
      show (g.writeLevels _ l).orElse _ = _
      unfold writeLevels
      rw [if_pos hle, List.getElem?_eq_getElem hlk]
      cases hgl : g.ks[l] with
      | some t => rfl
      | none => rfl
    · rw [if_neg hle]
      cases hgl : g.ks[l] with
      | none => rfl
      | some t => exact absurd (ha l t (by rw [List.getElem?_eq_getElem hlk, hgl])) hle
  · rw [if_neg hl, List.getElem?_eq_none (by rw [hw.len]; omega)]
    rfl

theorem Restarted.edges {g g' : DK K} (h : Restarted g g') : g'.edgesOf = g.edgesOf := by
  unfold edgesOf; rw [h.live, h.ks]

theorem Restarted.inv {g g' : DK K} (h : Restarted g g') (hi : g.Inv) : g'.Inv where
  c0wf := h.wf
  c0nv := by rw [h.c0nv, h.nv]; exact hi.c0nv
  len := by rw [h.ks]; exact hi.len
  val := by rw [h.ks, h.nv]; exact hi.val
  maxR_lt := by rw [h.maxR]; exact hi.maxR_lt
  range := by rw [h.edges, h.nv]; exact hi.range
  nodup := by rw [h.edges]; exact hi.nodup

theorem Restarted.few {g g' : DK K} (h : Restarted g g') {n : Nat} {w : Win} (hf : Few n g w) : Few n g' w where
  ex := ⟨h.inv hf.ex.inv, by rw [h.edges]; exact hf.ex.mem, by rw [h.edges, h.nTotal]; exact hf.ex.cnt, by
    intro i t hi
    rw [h.ks] at hi
    rw [h.maxR]; exact hf.ex.above i t hi⟩
  nd := hf.nd
  nv := by rw [h.nv]; exact hf.nv
  rare := hf.rare
  few := by rw [h.ks]; exact hf.few

theorem Restarted.calm {g g' : DK K} (h : Restarted g g') {B : Nat} {w : Win} (hc : Calm B g w) : Calm B g' w where
  c0m := h.c0m
  len := by rw [h.live]; exact hc.len
  recent := by rw [h.live]; exact hc.recent
  ne := by intro t ht; rw [h.ks] at ht; exact hc.ne t ht

theorem sessFrom_append (S : Sizing) : ∀ (a b : List SCmd) (s : DK K × Dir K),
    sessFrom S s (a ++ b) = (sessFrom S s a >>= fun s' => sessFrom S s' b) := by
  intro a
  induction a with
  | nil => intro b s; rfl
  | cons c a ih =>
    intro b s
    simp only [List.cons_append, sessFrom]
    cases sess1 S s c with
    | ok s' => rw [Res.ok_bind, Res.ok_bind, ih]
    | throws => rfl
    | ub => rfl
    | abort => rfl
    | diverge => rfl

theorem session_append (S : Sizing) (n : Nat) (a b : List SCmd) :
    session K S n (a ++ b) = (session K S n a >>= fun s => sessFrom S s b) := by
  unfold session
  cases create K S n with
  | ok g => rw [Res.ok_bind, Res.ok_bind, sessFrom_append]
  | throws => rfl
  | ub => rfl
  | abort => rfl
  | diverge => rfl

theorem _root_.DK2.SCmd.calls_append (a b : List SCmd) : SCmd.calls (a ++ b) = SCmd.calls a ++ SCmd.calls b := List.filterMap_append

/-- The induction behind C93: the state of `settled_run`, at every point of the session. -/
theorem session_run (hK : K.Lawful) (hF : K.ForcedPure) (hM : K.MarksOne) {S : Sizing} {X : Nat} (hS : S.Calibrated X)
    {n B M : Nat} (hn : 2 ≤ n) (hMx : M ≤ X) (hB : ∀ k, k ≤ M → S.maxsz (max n k) 0 ≤ B) {cs : List SCmd} :
    Settled n B M (SCmd.calls cs) → ∃ g : DK K, session K S n cs = .ok (g, Dir.empty K) ∧
      Few n g (Win.run (SCmd.calls cs)) ∧ Calm B g (Win.run (SCmd.calls cs)) ∧
      (Win.run (SCmd.calls cs)).present.length ≤ M := by
  induction cs using List.reverseRecOn with
  | nil =>
    intro hs
    obtain ⟨g, h1, h2, h3, h4⟩ := settled_run hK hF hM hS hn hMx hB (ops := []) (by intro pre o post h; simp at h)
    refine ⟨g, ?_, h2, h3, h4⟩
    unfold DK.run at h1
    unfold session
    rw [Res.bind_eq_ok] at h1
    obtain ⟨g0, c1, c2⟩ := h1
    cases c2
    rw [c1]; rfl
  | append_singleton cs c ih =>
    intro hs
    rw [SCmd.calls_append] at hs ⊢
    obtain ⟨g, h1, h2, h3, h4⟩ := ih hs.of_append
    rw [session_append, h1, Res.ok_bind]
    cases c with
    | call o =>
      have e1 : SCmd.calls [SCmd.call o] = [o] := rfl
      rw [e1] at hs ⊢
      obtain ⟨a1, a2, a3⟩ := hs (SCmd.calls cs) o [] rfl
      rw [Win.run_snoc] at a2 a3 ⊢
      obtain ⟨g', b1, b2, b3⟩ := h2.step hK hF hM hS hn hMx hB h3 h4 a1 a3
      refine ⟨g', ?_, b2, b3, a2⟩
      simp only [sessFrom, sess1, b1, Res.ok_bind]
    | cycle =>
      have e1 : SCmd.calls [SCmd.cycle] = [] := rfl
      rw [e1, List.append_nil]
      obtain ⟨d, g', b1, b2, b3⟩ := restart_ok S h2.ex.inv.toWInv h2.ex.above h3.c0m
      refine ⟨g', ?_, b3.few h2, b3.calm h3, h4⟩
      simp only [sessFrom, sess1, loadClear, b1, b2, Res.ok_bind]
    | fresh =>
      have e1 : SCmd.calls [SCmd.fresh] = [] := rfl
      rw [e1, List.append_nil]
      obtain ⟨d, g', b1, b2, b3⟩ := restart_ok S h2.ex.inv.toWInv h2.ex.above h3.c0m
      refine ⟨g', ?_, b3.few h2, b3.calm h3, h4⟩
      simp only [sessFrom, sess1, b1, b2, Res.ok_bind]

end DK

open DK

/-- C93 for any calibrated thresholds. -/
theorem session_shows (hK : K.Lawful) (hF : K.ForcedPure) (hM : K.MarksOne) {S : Sizing} {X : Nat} (hS : S.Calibrated X)
    {n B M : Nat} (hn : 2 ≤ n) (hMx : M ≤ X) (hB : ∀ k, k ≤ M → S.maxsz (max n k) 0 ≤ B) {cs : List SCmd}
    (hs : Settled n B M (SCmd.calls cs)) :
    ∃ g : DK K, DK.session K S n cs = .ok (g, Dir.empty K) ∧
      Shows g n (specMem (SCmd.calls cs)) (Win.run (SCmd.calls cs)).present.length ∧
      (n ≤ 9999999 → g.iface.Faithful (specMem (SCmd.calls cs)) ∧ g.iface.Algorithms n (specMem (SCmd.calls cs))) := by
  obtain ⟨g, h1, h2, h3, _⟩ := session_run hK hF hM hS hn hMx hB hs
  refine ⟨g, h1, h2.shows hK, fun h9 => ?_⟩
  have hf := DK.faithful_of hK (E := specMem (SCmd.calls cs)) h2.ex.inv h2.ex.above h3.ne h3.c0m (by rw [h2.nv]; omega)
    (by rw [h2.nv]; exact h9) (fun e => by rw [h2.ex.mem, (Win.present_spec _).2]) h2.ex.cnt
  have hnodes : g.iface.nodes = n := h2.nv
  have := hf.algorithms
  rw [hnodes] at this
  exact ⟨hf, this⟩

/-- C93: a program that adds and deletes as in C87 and restarts at any points, through one directory that it clears or
through new ones.  Every call returns, and every query, loop and algorithm answers for the set of edges, as without the
restarts. -/
theorem C93_restart (hK : K.Lawful) (hF : K.ForcedPure) (hM : K.MarksOne) {n B M : Nat} (hn : 2 ≤ n)
    (hMx : M ≤ 2 ^ 64) (hB : ∀ k, k ≤ M → realSizing.maxsz (max n k) 0 ≤ B) {cs : List SCmd}
    (hs : Settled n B M (SCmd.calls cs)) :
    ∃ g : DK K, DK.session K realSizing n cs = .ok (g, Dir.empty K) ∧
      Shows g n (specMem (SCmd.calls cs)) (Win.run (SCmd.calls cs)).present.length ∧
      (n ≤ 9999999 → g.iface.Faithful (specMem (SCmd.calls cs)) ∧ g.iface.Algorithms n (specMem (SCmd.calls cs))) :=
  session_shows hK hF hM realSizing_calibrated hn hMx hB hs

/-- `wSettled` with a restart before and after every deletion. -/
def wRestart : List SCmd := wSettled.flatMap fun
  | .add e => [.call (.add e)]
  | .del e => [.cycle, .call (.del e), .fresh, .cycle]

/-- C93's hypotheses hold of `wRestart`. -/
example : ∃ g : DK refK2, DK.session refK2 realSizing 4 wRestart = .ok (g, Dir.empty refK2) ∧
    g.numberEdges = 15 ∧ g.contains (1, 1) = .ok false := by
  obtain ⟨g, h1, h2, _⟩ := C93_restart refK2_lawful refK2_forcedPure refK2_marksOne (cs := wRestart) (by norm_num)
    (by norm_num) tab_cap (settled_of_check (by decide +kernel))
  refine ⟨g, h1, by rw [h2.edges]; decide +kernel, ?_⟩
  obtain ⟨b, hb, hb'⟩ := h2.contains (1, 1) (by decide)
  cases b with
  | false => exact hb
  | true => exact absurd ((Win.present_spec (SCmd.calls wRestart)).2 _ |>.2 (hb'.1 rfl)) (by decide +kernel)

/-- Without the condition a restart is not harmless: after deleting a buffered edge the save is undefined. -/
theorem C93_recent_refuted : DK.session refK2 realSizing 3 [.call (.add (0, 1)), .call (.del (0, 1)), .cycle] = .ub := by
  have h : (match DK.session refK2 hybSizing 3 [.call (.add (0, 1)), .call (.del (0, 1)), .cycle] with
    | .ub => true | _ => false) = true := by decide +kernel
  rw [realSizing_eq_hyb]
  revert h
  cases DK.session refK2 hybSizing 3 [.call (.add (0, 1)), .call (.del (0, 1)), .cycle] <;> simp

end DK2
