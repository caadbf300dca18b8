import Verif.BgMore
import Verif.VarAlgo
/-!
# Iterators and `Algorithm` on `DKtree_background` and `DKtree_background_wait` (C65)

The iterator classes are templates; instantiated with the background classes they read the buffer and the levels through
`first_container`, `k_collections`, `is_invalid_tree`, `get_neighbour_begin` (DKtree_background.hpp:267-314; w:308-355), without
looking at `needs_work`.  The edge iterator copies the buffer and the array of tree pointers when it is constructed and
works on the copies; the trees it points to are never changed by the worker (a merge writes only to a tree that is not in
the array).  The neighbour iterator reads the levels at each step.
-/

namespace DK2
namespace BG
variable {K : K2Impl}

/-! ## Programs -/

/-- A loop over `edge_begin()` … `edge_end()` (DKtree_background.hpp:275-283; w:316-324): one reading of the buffer and the levels.  Fuel as in
`DK.iface`. -/
def edgeLoop : BProg K (List Edge) := .read ⟨[.c0, .levels], []⟩ (fun s => s.g.iface.edges)

/-- The rest of a loop over `neighbour_begin(x)` (DKtree_background.hpp:295-314; w:336-355): every `++` reads the buffer or the levels and `max_r`. -/
def neighRest (x : Nat) : Nat → DK.NbIt → BProg K (List Int)
  | 0, _ => .read .none (fun _ => .diverge)
  | f + 1, it =>
    match DK.nbCur it with
    | none => .ret []
    | some y => (Prog.read ⟨[.c0, .levels, .maxR], []⟩ (fun s => s.g.nbNext x it)).bind fun it' =>
        (neighRest x f it').bind fun l => .ret (y :: l)

/-- A loop over `neighbour_begin(x)` … `neighbour_end()`. -/
def neighLoop (x fuel : Nat) : BProg K (List Int) :=
  (Prog.read ⟨[.c0, .levels, .maxR], []⟩ (fun s => s.g.nbBegin x)).bind fun it => neighRest x fuel it

/-- The value of a program run without interference from the state `s`. -/
def runAt {α : Type} : BProg K α → BG K → Res α
  | .ret a, _ => .ok a
  | .act _ f k, s => f s >>= fun r => runAt (k r.2) r.1
  | .wait c k, s => if c s then runAt k s else .diverge

/-- What `Algorithm` sees of a background graph whose worker has nothing to do (Algorithm.hpp uses no other member). -/
def iface (s : BG K) : GraphI where
  nodes := s.g.numberNodes
  nEdges := s.numberEdges
  nb x := do
    let l ← runAt (listNeighbour x) s
    let m ← runAt (neighLoop x (l.length + 1)) s
    .ok (m.map toEtype)
  listNb x := runAt (listNeighbour x) s
  edges := runAt edgeLoop s
  nodeSeq := do
    let m ← s.g.nodeAll (s.g.nv + 1)
    .ok (m.map toEtype)
  contains e := runAt (contains e) s

/-! ## No level holds an empty tree -/

/-- The tree the worker is building has an edge. -/
def TmpFull (K : K2Impl) : WPC K.T → Prop
  | .search t => K.edges t ≠ []
  | .merge t _ _ => K.edges t ≠ []
  | .store t _ => K.edges t ≠ []
  | _ => True

/-- The worker has not yet built the tree. -/
def Unbuilt : WPC K.T → Prop
  | .top => True
  | .test => True
  | .build => True
  | _ => False

/-- No level and no tree to come is empty. -/
structure NE (n : Nat) (s : BG K) (w : WPC K.T) : Prop where
  nv : s.g.nv = n
  lev : ∀ t, some t ∈ s.g.ks → K.edges t ≠ []
  tmp : TmpFull K w
  conv : s.needs = true → Unbuilt w → s.conv ≠ []

theorem union_full (hK : K.Lawful) {n : Nat} {a b : K.T} (ha : K.valid n a) (hb : K.valid n b) (h : K.edges a ≠ []) :
    K.edges (K.union a b) ≠ [] := by
  intro hc
  cases he : K.edges a with
  | nil => exact h he
  | cons e l =>
    have := (hK.union_edges n a b ha hb e).2 (Or.inl (by rw [he]; simp))
    rw [hc] at this; cases this

theorem NE.wstep (hK : K.Lawful) {n : Nat} {S : Sizing} {c : JC} {lv cv : List Edge} {x : Nat} {s s' : BG K} {w w' : WPC K.T}
    (hJ : J S c lv cv x s w) (h : NE n s w) (hs : BG.wstep S s w = .ok (s', w')) : NE n s' w' := by
  obtain ⟨h0, h1, h2, h3⟩ := h
  cases w with
  | top =>
    simp only [BG.wstep] at hs; cases hs
    refine ⟨h0, h1, ?_, fun hn _ => h3 hn trivial⟩
    cases s.run <;> exact trivial
  | test =>
    simp only [BG.wstep] at hs; cases hs
    refine ⟨h0, h1, ?_, fun hn _ => h3 hn trivial⟩
    cases s.needs <;> exact trivial
  | build =>
    simp only [BG.wstep] at hs; cases hs
    refine ⟨h0, h1, ?_, fun _ h => absurd h id⟩
    obtain ⟨hn, hb⟩ := hJ.stage
    have hc := h3 hn trivial
    intro he
    cases hl : s.conv with
    | nil => exact hc hl
    | cons e l =>
      have := (hK.build_edges s.conv s.g.nv hb.1 (by rw [hJ.nv]; exact hb.2) e).2 (by rw [hl]; simp)
      rw [he] at this; cases this
  | search t =>
    simp only [BG.wstep] at hs
    split at hs
    · cases hs
    · cases hs; exact ⟨h0, h1, h2, fun _ h => absurd h id⟩
  | merge t i j =>
    simp only [BG.wstep] at hs
    split at hs
    · split at hs
      · cases hs
      · cases hs; exact ⟨h0, h1, h2, fun _ h => absurd h id⟩
      · rename_i u hu
        cases hs
        refine ⟨h0, ?_, union_full hK hJ.stage.2.2.1 (hJ.val u (List.mem_of_getElem? hu)) h2, fun _ h => absurd h id⟩
        intro t' ht'
        rcases List.mem_or_eq_of_mem_set ht' with ht' | ht'
        · exact h1 t' ht'
        · cases ht'
    · cases hs; exact ⟨h0, h1, h2, fun _ h => absurd h id⟩
  | store t i =>
    simp only [BG.wstep] at hs
    rw [Res.bind_eq_ok] at hs
    obtain ⟨ks, hks, hs⟩ := hs
    cases hs
    rw [wr_eq_ok] at hks
    obtain ⟨_, rfl⟩ := hks
    refine ⟨h0, ?_, trivial, fun _ h => absurd h id⟩
    intro t' ht'
    rcases List.mem_or_eq_of_mem_set ht' with ht' | ht'
    · exact h1 t' ht'
    · cases ht'; exact h2
  | finish =>
    simp only [BG.wstep] at hs; cases hs
    exact ⟨h0, h1, trivial, fun hn => absurd hn (by simp)⟩
  | stopped => simp only [BG.wstep] at hs; cases hs; exact ⟨h0, h1, trivial, fun _ h => absurd h id⟩

/-- A program keeps `P`, provided the states it passes satisfy `G`. -/
def OkR {α : Type} (S : Sizing) (G : BG K → WPC K.T → Prop) : BProg K α → (BG K → WPC K.T → Prop) →
    (BG K → WPC K.T → Prop) → Prop
  | .ret _, P, Q => (∀ s w s' w', G s w → P s w → wstep S s w = .ok (s', w') → P s' w') ∧ ∀ s w, G s w → P s w → Q s w
  | .act _ f k, P, Q => (∀ s w s' w', G s w → P s w → wstep S s w = .ok (s', w') → P s' w') ∧
      ∃ P' : _ → BG K → WPC K.T → Prop, (∀ s w s' b, G s w → P s w → f s = .ok (s', b) → P' b s' w) ∧ ∀ b, OkR S G (k b) (P' b) Q
  | .wait c k, P, Q => (∀ s w s' w', G s w → P s w → wstep S s w = .ok (s', w') → P s' w') ∧
      ∃ P' : BG K → WPC K.T → Prop, (∀ s w, G s w → P s w → c s = true → P' s w) ∧ OkR S G k P' Q

theorem OkR.stable {α : Type} {S : Sizing} {G : BG K → WPC K.T → Prop} {p : BProg K α} {P Q : BG K → WPC K.T → Prop}
    (h : OkR S G p P Q) : ∀ s w s' w', G s w → P s w → wstep S s w = .ok (s', w') → P s' w' := by
  cases p with
  | ret a => exact h.1
  | act acc f k => exact h.1
  | wait c k => exact h.1

theorem OkR.exec {α : Type} {S : Sizing} {G : BG K → WPC K.T → Prop} {p : BProg K α} {P Q : BG K → WPC K.T → Prop}
    (h : OkR S G p P Q) {s : BG K} {w : WPC K.T} (hp : P s w)
    (hg : ∀ p' s' w', Exec (worker K S) p s w p' s' w' → G s' w')
    {p' : BProg K α} {s' : BG K} {w' : WPC K.T} (hx : Exec (worker K S) p s w p' s' w') :
    ∃ P', OkR S G p' P' Q ∧ P' s' w' := by
  induction hx with
  | start => exact ⟨P, h, hp⟩
  | caller hx hs ih =>
    obtain ⟨P', h1, h2⟩ := ih
    have hG := hg _ _ _ hx
    cases hs with
    | act hf =>
      obtain ⟨_, P'', h3, h4⟩ := h1
      exact ⟨P'' _, h4 _, h3 _ _ _ _ hG h2 hf⟩
    | pass hc =>
      obtain ⟨_, P'', h3, h4⟩ := h1
      exact ⟨P'', h4, h3 _ _ hG h2 hc⟩
  | worker hx hs ih =>
    obtain ⟨P', h1, h2⟩ := ih
    exact ⟨P', h1, h1.stable _ _ _ _ (hg _ _ _ hx) h2 hs⟩

theorem OkR.pre {α : Type} {S : Sizing} {G : BG K → WPC K.T → Prop} {p : BProg K α} {P P' Q : BG K → WPC K.T → Prop}
    (h : OkR S G p P Q) (hs : ∀ s w s' w', G s w → P' s w → wstep S s w = .ok (s', w') → P' s' w')
    (hp : ∀ s w, G s w → P' s w → P s w) : OkR S G p P' Q := by
  cases p with
  | ret a => exact ⟨hs, fun s w hg h' => h.2 s w hg (hp s w hg h')⟩
  | act acc f k =>
    obtain ⟨_, P'', h3, h4⟩ := h
    exact ⟨hs, P'', fun s w s' b hg h' => h3 s w s' b hg (hp s w hg h'), h4⟩
  | wait c k =>
    obtain ⟨_, P'', h3, h4⟩ := h
    exact ⟨hs, P'', fun s w hg h' => h3 s w hg (hp s w hg h'), h4⟩

theorem OkR.bind {α β : Type} {S : Sizing} {G : BG K → WPC K.T → Prop} {p : BProg K α} {f : α → BProg K β}
    {P R Q : BG K → WPC K.T → Prop} (h : OkR S G p P R) (hf : ∀ a, OkR S G (f a) R Q) : OkR S G (p.bind f) P Q := by
  induction p generalizing P with
  | ret a => exact (hf a).pre h.1 h.2
  | act acc g k ih =>
    obtain ⟨h1, P', h4, h5⟩ := h
    exact ⟨h1, P', h4, fun b => ih b (h5 b)⟩
  | wait c k ih =>
    obtain ⟨h1, P', h2, h3⟩ := h
    exact ⟨h1, P', h2, ih h3⟩

section
variable (hK : K.Lawful) (S : Sizing) {n : Nat} {tot : Prop}
include hK

theorem NE_stable : ∀ s w s' w', good S tot s w → NE n s w → wstep S s w = .ok (s', w') → NE (K := K) n s' w' := by
  rintro s w s' w' ⟨c, lv, cv, x, hJ, _⟩ h hs
  exact h.wstep hK hJ hs

theorem okr_read {β : Type} {acc : Acc BLoc} {f : BG K → Res β} : OkR S (good S tot) (Prog.read acc f) (NE n) (NE n) := by
  refine ⟨NE_stable hK S, fun _ => NE n, ?_, fun b => ⟨NE_stable hK S, fun _ _ _ h => h⟩⟩
  intro s w s' b _ h hf
  rw [Res.bind_eq_ok] at hf
  obtain ⟨_, _, hf⟩ := hf
  cases hf; exact h

theorem okr_ret {α : Type} {a : α} : OkR S (good (K := K) S tot) (.ret a) (NE n) (NE n) :=
  ⟨NE_stable hK S, fun _ _ _ h => h⟩

theorem okr_modify {acc : Acc BLoc} {f : BG K → Res (BG K)}
    (hf : ∀ s s', f s = .ok s' → s'.g.nv = s.g.nv ∧ s'.g.ks = s.g.ks ∧ s'.needs = s.needs ∧ s'.conv = s.conv) :
    OkR S (good S tot) (Prog.modify acc f) (NE n) (NE n) := by
  refine ⟨NE_stable hK S, fun _ => NE n, ?_, fun b => ⟨NE_stable hK S, fun _ _ _ h => h⟩⟩
  intro s w s' b _ h hs
  rw [Res.bind_eq_ok] at hs
  obtain ⟨s1, h1, hs⟩ := hs
  cases hs
  obtain ⟨e0, e1, e2, e3⟩ := hf _ _ h1
  exact ⟨by rw [e0]; exact h.nv, by rw [e1]; exact h.lev, h.tmp, by rw [e2, e3]; exact h.conv⟩

/-- Nothing pending, and (if `b`) a batch is ready. -/
def NEI (n : Nat) (b : Bool) (s : BG K) (w : WPC K.T) : Prop := NE n s w ∧ s.needs = false ∧ (b = true → s.conv ≠ [])

theorem NEI_stable (b : Bool) : ∀ s w s' w', good S tot s w → NEI n b s w → wstep S s w = .ok (s', w') → NEI (K := K) n b s' w' := by
  rintro s w s' w' ⟨c, lv, cv, x, hJ, _⟩ ⟨h, hn, hc⟩ hs
  have := hJ.idle_step hn hs
  subst this
  exact ⟨h.wstep hK hJ hs, hn, hc⟩

theorem flush_ne (e : Edge) : OkR S (good S tot) (flush e) (NEI (K := K) n false) (NE n) := by
  refine ⟨NEI_stable hK S false, fun _ => NEI n true, ?_, fun _ => ?_⟩
  · intro s w s' b _ h hs
    rw [Res.bind_eq_ok] at hs
    obtain ⟨s1, h1, hs⟩ := hs
    cases hs
    unfold prepare at h1
    rw [Res.bind_eq_ok] at h1
    obtain ⟨cc, _, h1⟩ := h1
    cases h1
    exact ⟨⟨h.1.nv, h.1.lev, h.1.tmp, fun _ _ => by simp⟩, h.2.1, fun _ => by simp⟩
  · refine ⟨NEI_stable hK S true, fun _ => NE n, ?_, fun _ => okr_modify hK S ?_⟩
    · intro s w s' b hg h hs
      cases hs
      exact ⟨h.1.nv, h.1.lev, h.1.tmp, fun _ _ => h.2.2 rfl⟩
    · intro s s' hs
      unfold cleanup at hs
      rw [Res.bind_eq_ok] at hs
      obtain ⟨_, _, hs⟩ := hs
      cases hs; exact ⟨rfl, rfl, rfl, rfl⟩

theorem contains_ne (e : Edge) : OkR S (good (K := K) S tot) (contains e) (NE n) (NE n) := by
  refine (okr_read hK S).bind fun b => ?_
  cases b with
  | true => exact okr_ret hK S
  | false =>
    rw [if_neg Bool.false_ne_true]
    refine (okr_read hK S).bind fun nd => ?_
    cases nd <;> exact okr_read hK S

omit hK in
theorem insert_frame {e : Edge} {s s' : BG K} (hs : insert S e s = .ok s') :
    s'.g.nv = s.g.nv ∧ s'.g.ks = s.g.ks ∧ s'.needs = s.needs ∧ s'.conv = s.conv := by
  unfold insert at hs
  rw [Res.bind_eq_ok] at hs
  obtain ⟨_, _, hs⟩ := hs
  cases hs; exact ⟨rfl, rfl, rfl, rfl⟩

theorem addEdge_ne (wv : Bool) (e : Edge) : OkR S (good (K := K) S tot) (addEdge wv S e) (NE n) (NE n) := by
  refine (contains_ne hK S e).bind fun b => ?_
  cases b with
  | true => exact okr_ret hK S
  | false =>
    rw [if_neg Bool.false_ne_true]
    refine (okr_read hK S).bind fun f => ?_
    cases f with
    | true => exact okr_modify hK S fun s s' hs => insert_frame S hs
    | false =>
      rw [if_neg Bool.false_ne_true]
      unfold addFull
      cases wv with
      | true =>
        rw [if_pos rfl]
        exact ⟨NE_stable hK S, NEI n false, fun s w _ h hc => ⟨h, by simpa using hc, by simp⟩, flush_ne hK S e⟩
      | false =>
        rw [if_neg Bool.false_ne_true]
        refine ⟨NE_stable hK S, fun nd s w => NE n s w ∧ (nd = false → s.needs = false), ?_, fun nd => ?_⟩
        · intro s w s' b _ h hs
          cases hs
          exact ⟨h, fun hb => hb⟩
        · have hst : ∀ s w s' w', good S tot s w → (NE (K := K) n s w ∧ (nd = false → s.needs = false)) →
              wstep S s w = .ok (s', w') → NE n s' w' ∧ (nd = false → s'.needs = false) :=
            fun s w s' w' hg h hs => ⟨NE_stable hK S _ _ _ _ hg h.1 hs, fun hb => (wstep_frame hs).2.2.2.2.2.2 (h.2 hb)⟩
          cases nd with
          | true =>
            refine (okr_modify hK S (f := insertPending S e) ?_).pre hst (fun _ _ _ h => h.1)
            intro s s' hs
            unfold insertPending at hs
            obtain ⟨h0, h1, h2, h3⟩ := insert_frame S hs
            exact ⟨h0, h1, h2, h3⟩
          | false => exact (flush_ne hK S e).pre hst (fun _ _ _ h => ⟨h.1, h.2 rfl, by simp⟩)

theorem addAll_ne (wv : Bool) (es : List Edge) : OkR S (good (K := K) S tot) (addAll wv S es) (NE n) (NE n) := by
  induction es with
  | nil => exact okr_ret hK S
  | cons e es ih => exact (addEdge_ne hK S wv e).bind fun _ => ih

theorem eraseFirst_ne {e : Edge} (he : InRange n e) : ∀ {ks : List (Option K.T)}, DK.AllValid K n ks →
    (∀ t, some t ∈ ks → K.edges t ≠ []) → ∀ t, some t ∈ (DKD.eraseFirst K e ks).2.2 → K.edges t ≠ [] := by
  intro ks
  induction ks with
  | nil => intro _ _ t ht; simp [DKD.eraseFirst] at ht
  | cons o ks ih =>
    intro hv h t ht
    have h' : ∀ t, some t ∈ ks → K.edges t ≠ [] := fun t ht => h t (List.mem_cons_of_mem _ ht)
    cases o with
    | none =>
      simp [DKD.eraseFirst] at ht
      exact ih hv.tail h' t ht
    | some u =>
      have hvu := hv.head
      simp only [DKD.eraseFirst] at ht
      split at ht
      · split at ht
        · simp at ht; exact h' t ht
        · rename_i hm
          simp at ht
          rcases ht with rfl | ht
          · have := hK.total_eq n _ (hK.erase_valid n u e hvu he)
            intro hc; rw [hc] at this; simp at this; omega
          · exact h' t ht
      · rename_i hf
        simp at ht
        rcases ht with rfl | ht
        · have hne : e ∉ K.edges u := by
            intro hm
            rw [hK.erase_fst n u e hvu he] at hf
            exact hf ((hK.adj_iff n u e hvu he).2 hm)
          intro hc
          cases hl : K.edges u with
          | nil => exact h u (by simp) hl
          | cons a l =>
            have ha : a ∈ K.edges u := by rw [hl]; simp
            have := (hK.erase_edges n u e hvu he a).2 ⟨ha, fun h => hne (h ▸ ha)⟩
            rw [hc] at this; cases this
        · exact ih hv.tail h' t ht

theorem delEdge_ne (wv : Bool) {e : Edge} (he : InRange n e) :
    OkR S (good (K := K) S tot) (delEdge wv S e) (NE n) (NE n) := by
  refine OkR.bind (R := NE n) ⟨NE_stable hK S, fun _ => NE n, ?_, fun b => okr_ret hK S⟩ fun b => ?_
  · intro s w s' b _ h hs
    unfold eraseBuf at hs
    rw [Res.bind_eq_ok] at hs
    obtain ⟨_, _, hs⟩ := hs
    cases hs; exact ⟨h.nv, h.lev, h.tmp, h.conv⟩
  · cases b with
    | true => exact okr_ret hK S
    | false =>
      rw [if_neg Bool.false_ne_true]
      refine ⟨NE_stable hK S, NE n, fun s w _ h _ => h, ?_⟩
      refine OkR.bind (R := NE n) ⟨NE_stable hK S, fun _ => NE n, ?_, fun b => okr_ret hK S⟩ fun l => addAll_ne hK S wv l
      rintro s w s' b ⟨c, lv, cv, x, hJ, _⟩ h hs
      have hv : DK.AllValid K n s.g.ks := by rw [← h.nv, hJ.nv]; exact hJ.val
      have hl := eraseFirst_ne hK he hv h.lev
      unfold eraseLevels at hs
      simp only at hs
      split at hs
      · cases hs
        refine ⟨h.nv, ?_, h.tmp, h.conv⟩
        intro t ht
        simp only [List.mem_mapIdx] at ht
        obtain ⟨i, hi, h2⟩ := ht
        split at h2
        · cases h2
        · exact hl t (by rw [← h2]; exact List.getElem_mem _)
      · cases hs; exact ⟨h.nv, hl, h.tmp, h.conv⟩

/-- On every history and schedule no level holds an empty tree. -/
theorem Reach.ne {wv : Bool} {ops : List Op} {s : BG K} {w : WPC K.T} (ho : OpsInRange n ops)
    (h : Reach wv K S n ops s w) : NE n s w := by
  induction h with
  | start h1 =>
    refine ⟨rfl, ?_, trivial, fun h => by simp [init] at h⟩
    intro t ht
    have : some t ∈ List.replicate RS (none : Option K.T) := ht
    simp at this
  | @work ops s s' w w' hp hs ih =>
    obtain ⟨c, hc⟩ := hp.track hK ho
    exact (ih ho).wstep hK hc.inv hs
  | @call ops o s s' w w' hp hx ih =>
    have ho' : OpsInRange n ops := fun o' h => ho o' (by simp [h])
    have hro := ho o (by simp)
    obtain ⟨c, hc⟩ := hp.track hK ho'
    have hnv : ∀ p' s' w', Exec (worker K S) (BG.call wv S o) s w p' s' w' → good S c.tot s' w' := by
      intro p' s' w' hx
      cases o with
      | add e => exact (addEdge_ok hK S wv c (hc.n.symm ▸ hro)).inv _ hc.inv hx
      | del e => exact (delEdge_ok hK S wv c hc.tot (hc.n.symm ▸ hro)).inv _ hc.inv hx
    cases o with
    | add e =>
      obtain ⟨P', h1, h2⟩ := (addEdge_ne hK S wv e).exec (ih ho') hnv hx
      exact h1.2 _ _ (hnv _ _ _ hx) h2
    | del e =>
      obtain ⟨P', h1, h2⟩ := (delEdge_ne hK S wv hro).exec (ih ho') hnv hx
      exact h1.2 _ _ (hnv _ _ _ hx) h2

end
end BG
end DK2
