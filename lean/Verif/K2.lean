import Verif.Spec
/-!
# Contract of the external `sdsl::k2_tree`

`sdsl::k2_tree` lives in the sdsl-lite fork, outside `/repo`.  Everything `/repo` uses of it is listed
here as an interface `K2Impl`; `K2Impl.Lawful` is the behaviour assumed of it (trusted base).
Coordinates outside `[0,n)` are outside the contract: no law says anything about them.
-/

namespace DK2

/-- The operations of `k2_tree` that `/repo` calls.  A method that mutates the tree returns the new
tree.
* `build es n`    – `k_tree(converted, n_vertices)` (DKtree.hpp:132)
* `empty n`       – `k_tree(n_vertices)` (DKtree_delay.hpp:236)
* `adj t e`       – `adj(x,y)` (DKtree.hpp:157)
* `adjForced t e` – `adj_forced(x,y)` (DKtree.hpp:173)
* `erase t e`     – `erase(x,y)`: result and new tree (DKtree.hpp:189)
* `union a b`     – `a->unionOp(b)` (DKtree.hpp:137)
* `total`, `marked` – `total_edges()`, `get_marked_edges()` (DKtree.hpp:197-200)
* `edges`         – the sequence from `edge_begin()` to `edge_end()` / `edge_it`
* `neigh t x`     – `neigh(x)`, also the sequence of `neigh_it` and of `neighbour_begin/end`
  (DKtree.hpp:258, 430; DKtreeNeighbourIterator.hpp:35)
* `valid n t`     – `t` is a tree over `n` vertices produced by these operations. -/
structure K2Impl where
  T : Type
  build : List Edge → Nat → T
  empty : Nat → T
  adj : T → Edge → Bool
  adjForced : T → Edge → Bool × T
  erase : T → Edge → Bool × T
  union : T → T → T
  total : T → Nat
  marked : T → Nat
  edges : T → List Edge
  neigh : T → Nat → List Nat
  valid : Nat → T → Prop

/-- The assumed behaviour (trusted base). -/
structure K2Impl.Lawful (K : K2Impl) : Prop where
  build_valid : ∀ es n, es.Nodup → (∀ e ∈ es, InRange n e) → K.valid n (K.build es n)
  build_edges : ∀ es n, es.Nodup → (∀ e ∈ es, InRange n e) →
    ∀ e, e ∈ K.edges (K.build es n) ↔ e ∈ es
  build_marked : ∀ es n, es.Nodup → (∀ e ∈ es, InRange n e) → K.marked (K.build es n) = 0
  empty_valid : ∀ n, K.valid n (K.empty n)
  empty_edges : ∀ n, K.edges (K.empty n) = []
  edges_nodup : ∀ n t, K.valid n t → (K.edges t).Nodup
  edges_range : ∀ n t, K.valid n t → ∀ e ∈ K.edges t, InRange n e
  /-- `total_edges()` counts the live edges and the erased ("marked") ones. -/
  total_eq : ∀ n t, K.valid n t → K.total t = (K.edges t).length + K.marked t
  adj_iff : ∀ n t e, K.valid n t → InRange n e → (K.adj t e = true ↔ e ∈ K.edges t)
  neigh_iff : ∀ n t x y, K.valid n t → x < n → (y ∈ K.neigh t x ↔ (x, y) ∈ K.edges t)
  neigh_nodup : ∀ n t x, K.valid n t → x < n → (K.neigh t x).Nodup
  erase_valid : ∀ n t e, K.valid n t → InRange n e → K.valid n (K.erase t e).2
  erase_fst : ∀ n t e, K.valid n t → InRange n e → (K.erase t e).1 = K.adj t e
  erase_edges : ∀ n t e, K.valid n t → InRange n e →
    ∀ e', e' ∈ K.edges (K.erase t e).2 ↔ e' ∈ K.edges t ∧ e' ≠ e
  union_valid : ∀ n a b, K.valid n a → K.valid n b → K.valid n (K.union a b)
  union_edges : ∀ n a b, K.valid n a → K.valid n b →
    ∀ e, e ∈ K.edges (K.union a b) ↔ e ∈ K.edges a ∨ e ∈ K.edges b
  union_marked : ∀ n a b, K.valid n a → K.valid n b → K.marked (K.union a b) = 0
  /-- "Checks if an edge exists in the graph, and add it if possible" (DKtree.hpp:162): a present
  edge is reported and nothing changes; an absent edge may be added (reported as present). -/
  forced_valid : ∀ n t e, K.valid n t → InRange n e → K.valid n (K.adjForced t e).2
  forced_true : ∀ n t e, K.valid n t → InRange n e → (K.adjForced t e).1 = true →
    ∀ e', e' ∈ K.edges (K.adjForced t e).2 ↔ e' ∈ K.edges t ∨ e' = e
  forced_false : ∀ n t e, K.valid n t → InRange n e → (K.adjForced t e).1 = false →
    e ∉ K.edges t ∧ (K.adjForced t e).2 = t

/-- `adj_forced` never adds: it is `adj`.  (The repository's own test `dktreeAddLink.addLink`
requires this of never-deleted leaves: see DESIGN.md, assumption A1.) -/
def K2Impl.ForcedPure (K : K2Impl) : Prop :=
  ∀ t e, K.adjForced t e = (K.adj t e, t)

/-! ## Reference instances: the contract is satisfiable -/

/-- Reference tree: vertex count, live edges and erased edges. -/
structure RefTree where
  n : Nat
  live : List Edge
  dead : List Edge
  deriving DecidableEq, Repr

/-- Reference implementation of the contract with a pure `adj_forced`. -/
@[reducible] def refK2 : K2Impl where
  T := RefTree
  build es n := ⟨n, es, []⟩
  empty n := ⟨n, [], []⟩
  adj t e := decide (e ∈ t.live)
  adjForced t e := (decide (e ∈ t.live), t)
  erase t e := if e ∈ t.live then (true, { t with live := t.live.filter (· ≠ e), dead := e :: t.dead })
    else (false, t)
  union a b := ⟨a.n, a.live ++ b.live.filter (· ∉ a.live), []⟩
  total t := t.live.length + t.dead.length
  marked t := t.dead.length
  edges t := t.live
  neigh t x := (t.live.filter (·.1 = x)).map (·.2)
  valid n t := t.n = n ∧ t.live.Nodup ∧ ∀ e ∈ t.live, InRange n e

theorem length_filter_ne {α : Type} [DecidableEq α] {l : List α} {a : α} (h : l.Nodup) (ha : a ∈ l) :
    (l.filter (fun x => decide (x ≠ a))).length + 1 = l.length := by
  induction l with
  | nil => simp at ha
  | cons b l ih =>
    rw [List.nodup_cons] at h
    by_cases hb : b = a
    · subst hb
      have : l.filter (fun x => decide (x ≠ b)) = l := by
        rw [List.filter_eq_self]
        intro x hx
        have : x ≠ b := fun h' => h.1 (h' ▸ hx)
        simpa using this
      rw [List.filter_cons]
      simp only [ne_eq, not_true_eq_false, decide_false, Bool.false_eq_true, if_false]
      simp only [ne_eq] at this
      rw [this]; simp
    · have ha' : a ∈ l := by
        rcases List.mem_cons.1 ha with h1 | h1
        · exact absurd h1.symm hb
        · exact h1
      have := ih h.2 ha'
      rw [List.filter_cons]
      simp only [ne_eq, hb, not_false_eq_true, decide_true, if_true, List.length_cons]
      simp only [ne_eq] at this
      omega

theorem neighOf_nodup {l : List Edge} (h : l.Nodup) (x : Nat) :
    ((l.filter (fun e => decide (e.1 = x))).map (·.2)).Nodup := by
  induction l with
  | nil => simp
  | cons e l ih =>
    rw [List.nodup_cons] at h
    rw [List.filter_cons]
    split
    · rename_i hx
      rw [List.map_cons, List.nodup_cons]
      refine ⟨?_, ih h.2⟩
      intro hm
      obtain ⟨e', he', h2⟩ := List.mem_map.1 hm
      rw [List.mem_filter] at he'
      have : e' = e := Prod.ext (by simp_all) h2
      exact h.1 (this ▸ he'.1)
    · exact ih h.2

theorem refK2_lawful : refK2.Lawful where
  build_valid := by intro es n hn hr; exact ⟨rfl, hn, hr⟩
  build_edges := by intro es n _ _ e; rfl
  build_marked := by intro es n _ _; rfl
  empty_valid := by intro n; exact ⟨rfl, by simp, by simp⟩
  empty_edges := by intro n; rfl
  edges_nodup := by intro n t h; exact h.2.1
  edges_range := by intro n t h; exact h.2.2
  total_eq := by intro n t h; rfl
  adj_iff := by intro n t e _ _; simp
  neigh_iff := by
    intro n t x y _ _
    simp
  neigh_nodup := by intro n t x h _; exact neighOf_nodup h.2.1 x
  erase_valid := by
    intro n t e h _
    by_cases he : e ∈ t.live
    · simp only [he, if_true]
      exact ⟨h.1, h.2.1.filter _, fun e' h' => h.2.2 e' (List.mem_filter.1 h').1⟩
    · simp only [he, if_false]; exact h
  erase_fst := by
    intro n t e _ _
    by_cases he : e ∈ t.live <;> simp [he]
  erase_edges := by
    intro n t e _ _ e'
    by_cases he : e ∈ t.live
    · simp [he]
    · simp only [he, if_false]
      constructor
      · intro h; exact ⟨h, fun h' => he (h' ▸ h)⟩
      · intro h; exact h.1
  union_valid := by
    intro n a b ha hb
    refine ⟨ha.1, ?_, ?_⟩
    · refine List.nodup_append.2 ⟨ha.2.1, hb.2.1.filter _, ?_⟩
      intro x hx y hy h
      have := (List.mem_filter.1 hy).2
      simp at this
      exact this (h ▸ hx)
    · intro e he
      rcases List.mem_append.1 he with h | h
      · exact ha.2.2 e h
      · exact hb.2.2 e (List.mem_filter.1 h).1
  union_edges := by
    intro n a b _ _ e
    by_cases h : e ∈ a.live <;> simp [h]
  union_marked := by intro n a b _ _; rfl
  forced_valid := by intro n t e h _; exact h
  forced_true := by
    intro n t e _ _ h e'
    simp at h
    constructor
    · exact Or.inl
    · rintro (h' | h')
      · exact h'
      · exact h' ▸ h
  forced_false := by intro n t e _ _ h; simp at h; exact ⟨h, rfl⟩

theorem refK2_forcedPure : refK2.ForcedPure := by intro t e; rfl

/-- Reference implementation whose `adj_forced` revives an erased edge ("and add it if possible",
DKtree.hpp:162). -/
@[reducible] def refK2Forced : K2Impl :=
  { refK2 with
    adjForced := fun t e =>
      if e ∈ t.live then (true, t)
      else if e ∈ t.dead then (true, { t with live := e :: t.live, dead := t.dead.erase e })
      else (false, t) }

end DK2
