import Verif.Algo
import Verif.AlgoSpec
import Mathlib.Logic.Relation
import Mathlib.Data.List.Range
import Mathlib.Data.List.Nodup
/-!
# `bfs` and `dfs`: proofs
-/

namespace DK2
namespace GraphI
variable {G : GraphI}

/-- Invariant of the `while` loop: `N` is the successor list of each vertex below `n`. -/
structure SInv (n : Nat) (N : Nat → List Nat) (root : Nat) (q : List Nat) (vis : Nat → Bool)
    (path : List Nat) : Prop where
  nodup : (path ++ q).Nodup
  vis : ∀ v, vis v = true ↔ v ∈ path ++ q
  reach : ∀ v ∈ path ++ q, Relation.ReflTransGen (fun x y => y ∈ N x) root v ∧ v < n
  closed : ∀ u ∈ path, ∀ v ∈ N u, v ∈ path ++ q
  head : (path ++ q).head? = some root ∨ (path.head? = some root)
  root : root ∈ path ++ q

theorem visit_fold {push : List Nat → Nat → List Nat} (hp : ∀ q v, (push q v).Perm (v :: q)) (A : List Nat) :
    ∀ (l q : List Nat) (vis : Nat → Bool), (A ++ q).Nodup → (∀ v, vis v = true ↔ v ∈ A ++ q) →
      (A ++ (l.foldl (visit push) (q, vis)).1).Nodup ∧
      (∀ v, (l.foldl (visit push) (q, vis)).2 v = true ↔ v ∈ A ++ (l.foldl (visit push) (q, vis)).1) ∧
      (∀ v, v ∈ A ++ (l.foldl (visit push) (q, vis)).1 ↔ v ∈ A ++ q ∨ v ∈ l) := by
  intro l
  induction l with
  | nil => intro q vis h1 h2; exact ⟨h1, h2, by simp⟩
  | cons a l ih =>
    intro q vis h1 h2
    rw [List.foldl_cons]
    by_cases ha : vis a = true
    · have : visit push (q, vis) a = (q, vis) := by simp [visit, ha]
      rw [this]
      obtain ⟨i1, i2, i3⟩ := ih q vis h1 h2
      refine ⟨i1, i2, fun v => ?_⟩
      rw [i3, List.mem_cons]
      constructor
      · rintro (h | h)
        · exact Or.inl h
        · exact Or.inr (Or.inr h)
      · rintro (h | rfl | h)
        · exact Or.inl h
        · exact Or.inl ((h2 v).1 ha)
        · exact Or.inr h
    · have : visit push (q, vis) a = (push q a, upd vis a true) := by simp [visit, ha]
      rw [this]
      have hna : a ∉ A ++ q := fun h => ha ((h2 a).2 h)
      have hmem : ∀ v, v ∈ A ++ push q a ↔ v = a ∨ v ∈ A ++ q := by
        intro v
        rw [List.mem_append, (hp q a).mem_iff, List.mem_append, List.mem_cons]
        tauto
      have hnd : (A ++ push q a).Nodup := by
        have : (A ++ push q a).Perm (a :: (A ++ q)) :=
          ((hp q a).append_left A).trans List.perm_middle
        rw [this.nodup_iff]
        exact List.nodup_cons.2 ⟨hna, h1⟩
      obtain ⟨i1, i2, i3⟩ := ih (push q a) (upd vis a true) hnd (by
        intro v
        rw [hmem]
        by_cases hv : v = a
        · subst hv; simp
        · rw [upd_other _ _ hv, h2]; simp [hv])
      refine ⟨i1, i2, fun v => ?_⟩
      rw [i3, hmem, List.mem_cons]
      tauto

/-- One turn of the loop preserves the invariant. -/
theorem SInv.turn {push : List Nat → Nat → List Nat} (hp : ∀ q v, (push q v).Perm (v :: q)) {n : Nat}
    {N : Nat → List Nat} (hN : ∀ x, x < n → ∀ y ∈ N x, y < n) {root u : Nat} {q path : List Nat}
    {vis : Nat → Bool} (h : SInv n N root (u :: q) vis path) :
    SInv n N root ((N u).foldl (visit push) (q, vis)).1 ((N u).foldl (visit push) (q, vis)).2
      (path ++ [u]) := by
  have e : path ++ [u] ++ q = path ++ u :: q := by simp
  obtain ⟨i1, i2, i3⟩ := visit_fold hp (path ++ [u]) (N u) q vis (by rw [e]; exact h.nodup)
    (by rw [e]; exact h.vis)
  have hu := h.reach u (by simp)
  refine ⟨i1, i2, ?_, ?_, ?_, ?_⟩
  · intro v hv
    rw [i3, e] at hv
    rcases hv with hv | hv
    · exact h.reach v hv
    · exact ⟨hu.1.tail hv, hN u hu.2 v hv⟩
  · intro w hw v hv
    rw [i3, e]
    rcases List.mem_append.1 hw with hw | hw
    · exact Or.inl (h.closed w hw v hv)
    · simp at hw; subst hw; exact Or.inr hv
  · right
    rcases h.head with h1 | h1
    · cases path with
      | nil => simpa using h1
      | cons a p => simpa using h1
    · cases path with
      | nil => simp at h1
      | cons a p => simpa using h1
  · rw [i3, e]; exact Or.inl h.root

/-- The loop ends, and any property preserved by its turns holds at the end. -/
theorem search_ind {push : List Nat → Nat → List Nat} (hp : ∀ q v, (push q v).Perm (v :: q)) {n : Nat}
    {N : Nat → List Nat} (hG : ∀ x, x < n → G.nb x = .ok (N x)) (hN : ∀ x, x < n → ∀ y ∈ N x, y < n)
    {root : Nat} (J : List Nat → (Nat → Bool) → List Nat → Prop)
    (hJ : ∀ u q vis path, SInv n N root (u :: q) vis path → J (u :: q) vis path →
      J ((N u).foldl (visit push) (q, vis)).1 ((N u).foldl (visit push) (q, vis)).2 (path ++ [u])) :
    ∀ (f : Nat) (q : List Nat) (vis : Nat → Bool) (path : List Nat), SInv n N root q vis path →
      J q vis path → n < f + path.length →
      ∃ p vis', G.searchLoop push f q vis path = .ok p ∧ SInv n N root [] vis' p ∧ J [] vis' p := by
  intro f
  induction f with
  | zero =>
    intro q vis path h _ hf
    exfalso
    have h1 : path.length ≤ n := by
      have hnd := (List.nodup_append.1 h.nodup).1
      have := hnd.length_le_of_subset (l₂ := List.range n) (fun v hv =>
        List.mem_range.2 (h.reach v (List.mem_append_left _ hv)).2)
      simpa using this
    omega
  | succ f ih =>
    intro q vis path h hj hf
    cases q with
    | nil => exact ⟨path, vis, rfl, h, hj⟩
    | cons u q =>
      have hu := (h.reach u (by simp)).2
      unfold searchLoop
      rw [hG u hu]
      simp only [Res.ok_bind]
      exact ih _ _ _ (h.turn hp hN) (hJ u q vis path h hj) (by simp; omega)

theorem SInv.init {n : Nat} {N : Nat → List Nat} {root : Nat} (hr : root < n) :
    SInv n N root [root] (upd (fun _ => false) root true) [] where
  nodup := by simp
  vis := by
    intro v
    by_cases hv : v = root
    · subst hv; simp
    · simp [upd, hv]
  reach := by
    intro v hv
    simp at hv; subst hv
    exact ⟨Relation.ReflTransGen.refl, hr⟩
  closed := by intro u hu; cases hu
  head := Or.inl rfl
  root := by simp

/-- At the end: exactly the reachable vertices, each once, root first. -/
theorem SInv.final {n : Nat} {N : Nat → List Nat} {root : Nat} {vis : Nat → Bool} {p : List Nat}
    (h : SInv n N root [] vis p) :
    p.Nodup ∧ p.head? = some root ∧ ∀ v, v ∈ p ↔ Relation.ReflTransGen (fun x y => y ∈ N x) root v := by
  refine ⟨by simpa using h.nodup, ?_, fun v => ⟨fun hv => (h.reach v (by simpa using hv)).1, fun hv => ?_⟩⟩
  · rcases h.head with h1 | h1
    · simpa using h1
    · exact h1
  · induction hv with
    | refl => simpa using h.root
    | tail _ hbc ih => simpa using h.closed _ ih _ hbc

theorem dfs_spec {n : Nat} {N : Nat → List Nat} (hG : ∀ x, x < n → G.nb x = .ok (N x))
    (hN : ∀ x, x < n → ∀ y ∈ N x, y < n) {root : Nat} (hr : root < n) {f : Nat} (hf : n < f) :
    ∃ p, G.dfs f root = .ok p ∧ p.Nodup ∧ p.head? = some root ∧
      ∀ v, v ∈ p ↔ Relation.ReflTransGen (fun x y => y ∈ N x) root v := by
  obtain ⟨p, vis', h1, h2, _⟩ := search_ind (push := fun q v => v :: q) (fun q v => List.Perm.refl _) hG hN
    (root := root) (fun _ _ _ => True) (fun _ _ _ _ _ _ => trivial) f _ _ _ (SInv.init hr) trivial (by simpa using hf)
  exact ⟨p, h1, h2.final⟩

/-! ## BFS order -/

theorem visit_append : ∀ (l q : List Nat) (vis : Nat → Bool),
    ∃ new, (l.foldl (visit (fun q v => q ++ [v])) (q, vis)).1 = q ++ new ∧
      (∀ w ∈ new, w ∈ l ∧ vis w = false) := by
  intro l
  induction l with
  | nil => intro q vis; exact ⟨[], by simp⟩
  | cons a l ih =>
    intro q vis
    rw [List.foldl_cons]
    by_cases ha : vis a = true
    · have : visit (fun q v => q ++ [v]) (q, vis) a = (q, vis) := by simp [visit, ha]
      rw [this]
      obtain ⟨new, h1, h2⟩ := ih q vis
      exact ⟨new, h1, fun w hw => ⟨by simp [(h2 w hw).1], (h2 w hw).2⟩⟩
    · have : visit (fun q v => q ++ [v]) (q, vis) a = (q ++ [a], upd vis a true) := by simp [visit, ha]
      rw [this]
      obtain ⟨new, h1, h2⟩ := ih (q ++ [a]) (upd vis a true)
      refine ⟨a :: new, by rw [h1]; simp, ?_⟩
      intro w hw
      rcases List.mem_cons.1 hw with rfl | hw
      · exact ⟨by simp, by simpa using ha⟩
      · obtain ⟨h3, h4⟩ := h2 w hw
        have hwa : w ≠ a := by rintro rfl; simp at h4
        rw [upd_other _ _ hwa] at h4
        exact ⟨by simp [h3], h4⟩

/-- Order invariant of `bfs`: levels `d` are sorted along `path ++ queue`, and the queue spans at most two
consecutive levels. -/
def OInv (N : Nat → List Nat) (root : Nat) (q : List Nat) (path : List Nat) : Prop :=
  ∃ d : Nat → Nat, d root = 0 ∧ (path ++ q).Pairwise (fun u v => d u ≤ d v) ∧
    (∀ v ∈ path ++ q, Walk (fun x y => y ∈ N x) (d v) root v) ∧
    (∀ u ∈ path, ∀ v ∈ N u, d v ≤ d u + 1) ∧
    (∀ u ∈ q, ∀ v ∈ q, d v ≤ d u + 1)

theorem OInv.turn {n : Nat} {N : Nat → List Nat} {root u : Nat} {q path : List Nat} {vis : Nat → Bool}
    (hs : SInv n N root (u :: q) vis path) (h : OInv N root (u :: q) path) :
    OInv N root ((N u).foldl (visit (fun q v => q ++ [v])) (q, vis)).1 (path ++ [u]) := by
  obtain ⟨d, d0, d1, d2, d3, d4⟩ := h
  obtain ⟨new, h1, h2⟩ := visit_append (N u) q vis
  have hp : ∀ q v, (q ++ [v] : List Nat).Perm (v :: q) := fun q v => by
    simpa using (List.perm_append_comm (l₁ := q) (l₂ := [v]))
  have e : path ++ [u] ++ q = path ++ u :: q := by simp
  obtain ⟨_, _, i3⟩ := visit_fold hp (path ++ [u]) (N u) q vis (by rw [e]; exact hs.nodup)
    (by rw [e]; exact hs.vis)
  rw [h1] at i3 ⊢
  -- new vertices get level d u + 1
  let d' : Nat → Nat := fun v => if v ∈ path ++ u :: q then d v else d u + 1
  have hold : ∀ v, v ∈ path ++ u :: q → d' v = d v := fun v hv => if_pos hv
  have hnew : ∀ v, v ∉ path ++ u :: q → d' v = d u + 1 := fun v hv => if_neg hv
  have hnn : ∀ w ∈ new, w ∉ path ++ u :: q := by
    intro w hw hc
    have := (hs.vis w).2 hc
    rw [(h2 w hw).2] at this; cases this
  have hdu : d' u = d u := hold u (by simp)
  have hq : ∀ v ∈ q, d v ≤ d u + 1 := fun v hv => d4 u (by simp) v (by simp [hv])
  have hsort := List.pairwise_append.1 d1
  have hle : ∀ v ∈ path ++ u :: q, d v ≤ d u + 1 := by
    intro v hv
    rcases List.mem_append.1 hv with hv | hv
    · have := hsort.2.2 v hv u (by simp); omega
    · rcases List.mem_cons.1 hv with rfl | hv
      · omega
      · exact hq v hv
  refine ⟨d', ?_, ?_, ?_, ?_, ?_⟩
  · rw [hold root hs.root, d0]
  · rw [← List.append_assoc, e, List.pairwise_append]
    refine ⟨?_, ?_, ?_⟩
    · exact d1.imp_of_mem (fun {a b} ha hb hab => by rw [hold a ha, hold b hb]; exact hab)
    · rw [List.pairwise_iff_forall_sublist]
      intro a b hab
      have ha : a ∈ new := hab.subset (by simp)
      have hb : b ∈ new := hab.subset (by simp)
      rw [hnew a (hnn a ha), hnew b (hnn b hb)]
    · intro a ha b hb
      rw [hold a ha, hnew b (hnn b hb)]
      exact hle a ha
  · intro v hv
    rw [← List.append_assoc, e] at hv
    rcases List.mem_append.1 hv with hv | hv
    · rw [hold v hv]; exact d2 v hv
    · rw [hnew v (hnn v hv)]
      exact (d2 u (by simp)).snoc (h2 v hv).1
  · intro w hw v hv
    rcases List.mem_append.1 hw with hw | hw
    · have h5 := hs.closed w hw v hv
      rw [hold w (List.mem_append_left _ hw), hold v h5]
      exact d3 w hw v hv
    · simp at hw; subst hw
      rw [hdu]
      by_cases h5 : v ∈ path ++ w :: q
      · rw [hold v h5]; exact hle v h5
      · rw [hnew v h5]
  · have hb : ∀ w ∈ q ++ new, d u ≤ d' w ∧ d' w ≤ d u + 1 := by
      intro w hw
      rcases List.mem_append.1 hw with hw | hw
      · rw [hold w (by simp [hw])]
        have h6 := hsort.2.1
        rw [List.pairwise_cons] at h6
        exact ⟨h6.1 w hw, hq w hw⟩
      · rw [hnew w (hnn w hw)]; omega
    intro a ha b hb'
    have := hb a ha; have := hb b hb'
    omega

theorem bfs_spec {n : Nat} {N : Nat → List Nat} (hG : ∀ x, x < n → G.nb x = .ok (N x))
    (hN : ∀ x, x < n → ∀ y ∈ N x, y < n) {root : Nat} (hr : root < n) {f : Nat} (hf : n < f) :
    ∃ p, G.bfs f root = .ok p ∧ p.Nodup ∧ p.head? = some root ∧
      (∀ v, v ∈ p ↔ Relation.ReflTransGen (fun x y => y ∈ N x) root v) ∧
      p.Pairwise (fun u v => ∀ k, Walk (fun x y => y ∈ N x) k root v →
        ∃ j, j ≤ k ∧ Walk (fun x y => y ∈ N x) j root u) := by
  have hp : ∀ q v, (q ++ [v] : List Nat).Perm (v :: q) := fun q v => by
    simpa using (List.perm_append_comm (l₁ := q) (l₂ := [v]))
  obtain ⟨p, vis', h1, h2, h3⟩ := search_ind (push := fun q v => q ++ [v]) hp hG hN
    (root := root) (fun q _ path => OInv N root q path) (fun u q vis path hs hj => hj.turn hs) f _ _ _
    (SInv.init hr) (by
      refine ⟨fun _ => 0, rfl, by simp, ?_, ?_, ?_⟩
      · intro v hv; simp at hv; subst hv; exact Walk.nil v
      · intro u hu; cases hu
      · intro u _ v _; exact Nat.zero_le _) (by simpa using hf)
  obtain ⟨a1, a2, a3⟩ := h2.final
  refine ⟨p, h1, a1, a2, a3, ?_⟩
  obtain ⟨d, d0, d1, d2, d3, _⟩ := h3
  simp only [List.append_nil] at d1 d2
  have hmin : ∀ k v, Walk (fun x y => y ∈ N x) k root v → v ∈ p ∧ d v ≤ k := by
    intro k v hw
    generalize hroot : root = r at hw
    induction hw with
    | nil u => subst hroot; exact ⟨by simpa using h2.root, by omega⟩
    | snoc _ he ih =>
      obtain ⟨i1, i2⟩ := ih hroot
      refine ⟨by simpa using h2.closed _ i1 _ he, ?_⟩
      have := d3 _ i1 _ he
      omega
  exact d1.imp_of_mem (fun {a b} ha hb hab k hk => ⟨d a, Nat.le_trans hab (hmin k b hk).2, d2 a ha⟩)

end GraphI
end DK2
