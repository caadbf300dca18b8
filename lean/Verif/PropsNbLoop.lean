import Verif.NbLoop
import Verif.RealTab
/-!
# C70, C71: changing the graph inside a loop over `neighbour_begin(x)` … `neighbour_end()`
-/

namespace DK2
open DK

variable {K : K2Impl}

/-! ## C70 insertions inside the loop -/

/-- C70: a loop over the neighbours of `x` whose rounds insert edges ends; every value it visits is a
neighbour of `x` by then, and every neighbour from before the loop is visited. -/
def C70_Full (S : Sizing) : Prop :=
  ∀ K : K2Impl, K.Lawful → K.ForcedPure → ∀ n (es : List Edge) (g : DK K) x (body : Nat → Int → List Edge),
    2 ≤ n → n ≤ 2 ^ 31 → x < n → (∀ e ∈ es, InRange n e) → (∀ j a, ∀ e ∈ body j a, InRange n e) →
    run K S n (es.map Op.add) = .ok g →
    ∀ fuel vs g', nbFor S x (fun j a => (body j a).map Op.add) fuel g = .ok (vs, g') →
      (∀ a ∈ vs, ∃ y : Nat, a = (y : Int) ∧ g'.contains (x, y) = .ok true) ∧
      ∀ y : Nat, y < n → g.contains (x, y) = .ok true → (y : Int) ∈ vs

/-- The first round of the loop inserts `(1,1)`, which flushes the buffer of two edges, then `(2,0)` and
`(2,1)`, which take the freed slots. -/
def wNbBody (j : Nat) : List Edge := if j = 0 then [(1, 1), (2, 0), (2, 1)] else []

/-- Refuted with the thresholds of the code, on 3 vertices: the graph has the edges `0→1` and `0→2`; the
loop over the neighbours of 0 visits 2, the insertions of that round flush the buffer and refill its slots, and the next
value visited is 0, although `0→0` was never inserted; then the loop visits 1 and, a second time, 2. -/
theorem C70_refuted : ¬ C70_Full realSizing := by
  intro h
  have hc : check (run refK2 hybSizing 3 (List.map Op.add [(0, 1), (0, 2)])) (fun g =>
      check (nbFor hybSizing 0 (fun j _ => (wNbBody j).map Op.add) 9 g) (fun r =>
        decide (r.1 = [2, 0, 1, 2] ∧ r.2.contains (0, 0) = .ok false))) = true := by
    decide +kernel
  rw [← realSizing_eq_hyb] at hc
  obtain ⟨g, hg, hc⟩ := check_iff.1 hc
  obtain ⟨⟨vs, g'⟩, hl, hc⟩ := check_iff.1 hc
  simp only [decide_eq_true_eq] at hc
  obtain ⟨y, h1, h2⟩ := (h refK2 refK2_lawful refK2_forcedPure 3 _ g 0 (fun j _ => wNbBody j) (by decide)
    (by decide) (by decide) (by decide) (by
      intro j a e he
      unfold wNbBody at he
      split at he
      · simp at he; rcases he with rfl | rfl | rfl <;> decide
      · simp at he) hg 9 vs g' hl).1 0 (by rw [hc.1]; decide)
  have : y = 0 := by omega
  subst this
  rw [hc.2] at h2; cases h2

/-- C70 while the insertions of the loop fit into the buffer (their number plus the number of buffered edges
does not exceed the first threshold): the loop ends, visits exactly the neighbours from before the loop,
each once, and leaves the graph that the same insertions outside a loop leave.
Missing: loops whose insertions flush the buffer (false, `C70_refuted`), and graphs with fewer than 8
vertices. -/
theorem C70_fits_partial (hK : K.Lawful) (hF : K.ForcedPure) {n : Nat} (hn : 8 ≤ n) (hn2 : n ≤ 2 ^ 31)
    {es : List Edge} (hes : ∀ e ∈ es, InRange n e) {g : DK K} (hr : run K realSizing n (es.map Op.add) = .ok g)
    {x : Nat} (hx : x < n) (body : Nat → Int → List Edge) (hb : ∀ j a, ∀ e ∈ body j a, InRange n e)
    {vs : List Int} (hvs : ∃ fuel, g.nbAll x fuel = .ok vs)
    (hfit : g.c0.size + (bodies body 0 vs).length ≤ realSizing.maxsz (max n g.numberEdges) 0) :
    vs.Nodup ∧ (∀ a, a ∈ vs ↔ ∃ y : Nat, a = (y : Int) ∧ (x, y) ∈ es) ∧
    ∃ g' : DK K, (∀ fuel, vs.length < fuel →
        nbFor realSizing x (fun j a => (body j a).map Op.add) fuel g = .ok (vs, g')) ∧
      run K realSizing n ((es ++ bodies body 0 vs).map Op.add) = .ok g' ∧
      ∀ e, InRange n e → g'.contains e = .ok (decide (e ∈ es ∨ e ∈ bodies body 0 vs)) := by
  obtain ⟨g0, h1, hf, hnv, hex⟩ := run_inserts hK hF realSizing_top (n := n) (by omega) hes
  have hr' : run K realSizing n (inserts es) = .ok g := hr
  rw [hr'] at h1; cases h1
  have ho : OpsInRange n (inserts es) := by
    intro o hoo
    obtain ⟨e, he, rfl⟩ := List.mem_map.1 hoo
    exact hes e he
  obtain ⟨it, l, b1, b2, b3⟩ := nbBegin_at hex.inv.toWInv x
  have hlt := listNeighbour_lt hK realSizing ho hr hx b2
  have hmap := toInt_small hn2 hlt
  have hne : ∀ y ∈ l, toInt y ≠ -1 := by
    intro y hy
    rw [toInt_of_lt (by have := hlt y hy; omega)]; omega
  obtain ⟨fu, hvs⟩ := hvs
  have hvl : vs = l.map toInt := by
    obtain ⟨l', c1, c2⟩ := C09_neighbour_iterator hK realSizing hn2 ho hr hx
    rw [b2] at c1; cases c1
    have c3 := c2 (l.length + 1) (by omega)
    unfold DK.nbAll at hvs c3
    rw [b1] at hvs c3
    rw [hmap]
    exact drive_mono hvs c3
  subst hvl
  have hM : realSizing.MonoFrom n := fun m m' h h' => realSizing_mono m m' (by omega) h'
  have hbo : ∀ (j : Nat) (l : List Int), ∀ e ∈ bodies body j l, InRange n e := by
    intro j l
    induction l generalizing j with
    | nil => intro e he; simp [bodies] at he
    | cons a l ih =>
      intro e he
      rcases List.mem_append.1 he with h | h
      · exact hb j a e h
      · exact ih (j + 1) e h
  obtain ⟨l', c1, c2, c3⟩ := C07_quiet_partial hK hF realSizing ho (inserts_quiet _ _ _) hx hr
  rw [b2] at c1; cases c1
  have hfit' : g.c0.size + (bodies body 0 (l.map toInt)).length ≤ realSizing.maxsz (max n g.nTotal) 0 := hfit
  obtain ⟨g', k1, k2, k3, k4, _⟩ := NbAt.inserts hK hF realSizing_top (by omega) hM
    (bodies body 0 (l.map toInt)) hf hex hnv (hbo _ _) hfit'
  refine ⟨?_, ?_, g', ?_, ?_, ?_⟩
  · rw [hmap]; exact c2.map (fun a b h => by simpa using h)
  · intro a
    rw [hmap, List.mem_map]
    have hsp : ∀ y, y ∈ l ↔ (x, y) ∈ es := by
      intro y; rw [c3 y]; exact (specMem_iff_specRun _ _).trans (specRun_inserts es (x, y))
    constructor
    · rintro ⟨y, hy, rfl⟩; exact ⟨y, rfl, (hsp y).1 hy⟩
    · rintro ⟨y, rfl, hy⟩; exact ⟨y, (hsp y).2 hy, rfl⟩
  · intro fuel hfu
    obtain ⟨g2, m1, m2⟩ := nbLoop_inserts hK hF realSizing_top (by omega) hM x body l 0 fuel hf hex hnv b3 hne
      (by simpa using hfu) (hbo _ _) hfit'
    rw [k1] at m2; cases m2
    unfold nbFor
    rw [b1]
    exact m1
  · have : (es ++ bodies body 0 (l.map toInt)).map Op.add =
        inserts es ++ inserts (bodies body 0 (l.map toInt)) := by simp [inserts]
    rw [this, run_append, hr']
    exact k1
  · intro e he
    rw [k4.inv.contains_eq hK (by rw [k3]; exact he)]
    congr 1
    rw [decide_eq_decide, k4.mem]
    exact or_comm

/-- Instance: on 35 vertices (buffer of two edges) an edge in a tree, one in the buffer, and a loop whose
first round inserts one more edge. -/
example : ∃ g : DK refK2, run refK2 realSizing 35 (List.map Op.add [(0, 1), (0, 2), (0, 3), (0, 4)]) = .ok g ∧
    g.nbAll 0 9 = .ok [4, 1, 2, 3] ∧
    g.c0.size + (bodies (fun j _ => if j = 0 then [(0, 7)] else []) 0 [4, 1, 2, 3]).length ≤
      realSizing.maxsz (max 35 g.numberEdges) 0 := by
  have hc : check (run refK2 hybSizing 35 (List.map Op.add [(0, 1), (0, 2), (0, 3), (0, 4)])) (fun g =>
      decide (g.nbAll 0 9 = .ok [4, 1, 2, 3] ∧
        g.c0.size + (bodies (fun j _ => if j = 0 then [(0, 7)] else []) 0 [4, 1, 2, 3]).length ≤
        hybSizing.maxsz (max 35 g.numberEdges) 0)) = true := by decide +kernel
  rw [← realSizing_eq_hyb] at hc
  obtain ⟨g, hg, hc⟩ := check_iff.1 hc
  exact ⟨g, hg, of_decide_eq_true hc⟩

/-! ## C71 deletions inside the loop -/

/-- C71: a loop over the neighbours of `x` whose rounds delete edges out of `x` visits only edges that are
still in the graph when they are visited: no value is visited after the edge to it was deleted. -/
def C71_Full (S : Sizing) : Prop :=
  ∀ K : K2Impl, K.Lawful → K.ForcedPure → ∀ n (es : List Edge) (g : DK K) x (body : Nat → Int → List Nat),
    2 ≤ n → n ≤ 2 ^ 31 → x < n → (∀ e ∈ es, InRange n e) → (∀ j a, ∀ y ∈ body j a, y < n) →
    run K S n (es.map Op.add) = .ok g →
    ∀ fuel vs g', nbFor S x (fun j a => (body j a).map (fun y => Op.del (x, y))) fuel g = .ok (vs, g') →
      ∀ j i a, i < j → vs[i]? = some a → ∀ y ∈ body i a, vs[j]? ≠ some (y : Int)

/-- Refuted with the thresholds of the code, on 2 vertices: the graph has the edges `0→0` and `0→1`; the
first round of the loop (which visits 1) deletes `0→1` and `0→0`, and the second round still visits 0: the erased node under
the iterator keeps its link to the node of `0→0`. -/
theorem C71_refuted : ¬ C71_Full realSizing := by
  intro h
  have hc : check (run refK2 hybSizing 2 (List.map Op.add [(0, 0), (0, 1)])) (fun g =>
      check (nbFor hybSizing 0 (fun j _ => (if j = 0 then [1, 0] else []).map (fun y => Op.del (0, y))) 9 g)
        (fun r => decide (r.1 = [1, 0]))) = true := by
    decide +kernel
  rw [← realSizing_eq_hyb] at hc
  obtain ⟨g, hg, hc⟩ := check_iff.1 hc
  obtain ⟨⟨vs, g'⟩, hl, hc⟩ := check_iff.1 hc
  simp only [decide_eq_true_eq] at hc
  subst hc
  exact h refK2 refK2_lawful refK2_forcedPure 2 _ g 0 (fun j _ => if j = 0 then [1, 0] else []) (by decide)
    (by decide) (by decide) (by decide) (by
      intro j a y hy
      split at hy
      · simp at hy; rcases hy with rfl | rfl <;> decide
      · simp at hy) hg 9 [1, 0] g' hl 1 0 1 (by decide) rfl 0 (by decide) rfl

/-- C71 for the loop that deletes the edge it visits, for the visited values selected by `p`, on a graph
with so few insertions that none left the buffer: the loop ends, visits every neighbour exactly once, and
afterwards exactly the edges `x→y` with `p y` are gone.
Missing: rounds that delete other edges out of `x` (false, `C71_refuted`) and neighbours stored in the trees
(what an iterator of the external `k2_tree` does after `erase` is not specified), and graphs with fewer than 8
vertices. -/
theorem C71_visited_partial (hK : K.Lawful) (hF : K.ForcedPure) {n : Nat} (hn : 8 ≤ n) (hn2 : n ≤ 2 ^ 31)
    {es : List Edge} (hes : ∀ e ∈ es, InRange n e) (hfit : es.length ≤ realSizing.maxsz n 0)
    {g : DK K} (hr : run K realSizing n (es.map Op.add) = .ok g) {x : Nat} (hx : x < n) (p : Int → Bool) :
    ∃ (vs : List Int) (g' : DK K),
      (∀ fuel, vs.length < fuel →
        nbFor realSizing x (fun _ a => if p a then [Op.del (x, a.toNat)] else []) fuel g = .ok (vs, g')) ∧
      vs.Nodup ∧ (∀ a, a ∈ vs ↔ ∃ y : Nat, a = (y : Int) ∧ (x, y) ∈ es) ∧
      ∀ e, InRange n e → g'.contains e = .ok (decide (e ∈ es ∧ ¬ (e.1 = x ∧ p (e.2 : Int) = true))) := by
  have hr' : run K realSizing n (inserts es) = .ok g := hr
  have ho : OpsInRange n (inserts es) := by
    intro o hoo
    obtain ⟨e, he, rfl⟩ := List.mem_map.1 hoo
    exact hes e he
  have hM : realSizing.MonoFrom n := fun m m' h h' => realSizing_mono m m' (by omega) h'
  obtain ⟨gi, i1, i2, i3, i4⟩ := run_inserts hK hF realSizing_top (n := n) (by omega) (es := []) (by simp)
  have hgi : run K realSizing n [] = .ok gi := i1
  have hgi' := (run_nil hgi).1
  obtain ⟨g0, k1, k2, k3, k4, k5, k6, k7, _⟩ := NbAt.inserts hK hF realSizing_top (by omega) hM es i2 i4 i3 hes
    (by
      rw [hgi'] at i4 ⊢
      have h0 : (init K realSizing n).c0.size = 0 := rfl
      have h1 : (init K realSizing n).nTotal = 0 := rfl
      rw [h0, h1]; simpa using hfit)
  have hg0 : g0 = g := by
    have : inserts es = [] ++ inserts es := rfl
    rw [this, run_append, hgi] at hr'
    have h2 : runFrom realSizing gi (inserts es) = .ok g := hr'
    rw [k1] at h2; exact Res.ok.inj h2
  subst hg0
  have ht : treesNeigh K x (g0.ks.take (g0.maxR + 1)) = [] := by
    rw [k7, hgi']
    have : ∀ (m r : Nat), treesNeigh K x ((List.replicate m none).take r) = [] := by
      intro m
      induction m with
      | zero => intro r; simp [treesNeigh]
      | succ m ih =>
        intro r
        cases r with
        | zero => simp [treesNeigh]
        | succ r => rw [List.replicate_succ, List.take_succ_cons]; exact ih r
    exact this _ _
  obtain ⟨it, l, b1, b2, b3⟩ := nbBegin_at k4.inv.toWInv x
  have hlt := listNeighbour_lt hK realSizing ho hr hx b2
  have hmap := toInt_small hn2 hlt
  have hin : it.inC0 = true ∨ l = [] := by
    rcases b3 with ⟨h1, _⟩ | ⟨h1, j, a, l1, h2, h3, h4, h5⟩ | ⟨_, h5⟩
    · exact Or.inl h1
    · exfalso
      unfold DK.nbBegin at b1
      obtain ⟨c, c1, c2⟩ := Res.bind_eq_ok.1 b1
      cases hp : c.ptr with
      | some y => rw [hp] at c2; cases c2; cases h1
      | none =>
        rw [hp] at c2
        have hs := seek_spec x (g0.ks.take (g0.maxR + 1)) 0
        cases hse : seek K x (g0.ks.take (g0.maxR + 1)) 0 with
        | none => rw [hse] at c2; cases c2; cases h3
        | some q =>
          rw [hse] at hs
          obtain ⟨i, l'⟩ := q
          obtain ⟨_, s2, s3⟩ := hs
          rw [ht] at s3
          cases l' with
          | nil => exact s2 rfl
          | cons _ _ => cases s3
    · exact Or.inr h5
  obtain ⟨l', c1, c2, c3⟩ := C07_quiet_partial hK hF realSizing ho (inserts_quiet _ _ _) hx hr
  rw [b2] at c1; cases c1
  have hsp : ∀ y, y ∈ l ↔ (x, y) ∈ es := by
    intro y; rw [c3 y]; exact (specMem_iff_specRun _ _).trans (specRun_inserts es (x, y))
  have hl31 : ∀ y ∈ l, y < 2 ^ 31 := fun y hy => by have := hlt y hy; omega
  obtain ⟨g', m1, m2, m3, m4⟩ := nbLoop_deletes hK realSizing x p l 0 (l.length + 1) k4.inv b3 hin ht hl31
    (by omega)
  refine ⟨l.map toInt, g', ?_, ?_, ?_, ?_⟩
  · intro fuel hfu
    obtain ⟨g2, q1, q2, q3, q4⟩ := nbLoop_deletes hK realSizing x p l 0 fuel k4.inv b3 hin ht hl31
      (by simpa using hfu)
    have : g2 = g' := by
      have hmono : ∀ (f f' j : Nat) (g : DK K) (it : NbIt) r r',
          nbLoop realSizing x (fun _ a => if p a then [Op.del (x, a.toNat)] else []) f j g it = .ok r →
          nbLoop realSizing x (fun _ a => if p a then [Op.del (x, a.toNat)] else []) f' j g it = .ok r' →
          r = r' := by
        intro f
        induction f with
        | zero => intro f' j g it r r' h; cases h
        | succ f ih =>
          intro f' j g it r r' h h'
          cases f' with
          | zero => cases h'
          | succ f' =>
            unfold nbLoop at h h'
            cases hc : nbCur it with
            | none => rw [hc] at h h'; cases h; cases h'; rfl
            | some a =>
              rw [hc] at h h'
              obtain ⟨s1, e1, h⟩ := Res.bind_eq_ok.1 h
              obtain ⟨s2, e2, h'⟩ := Res.bind_eq_ok.1 h'
              rw [e1] at e2; cases e2
              obtain ⟨t1, e1, h⟩ := Res.bind_eq_ok.1 h
              obtain ⟨t2, e2, h'⟩ := Res.bind_eq_ok.1 h'
              rw [e1] at e2; cases e2
              obtain ⟨r1, e3, h⟩ := Res.bind_eq_ok.1 h
              obtain ⟨r2, e4, h'⟩ := Res.bind_eq_ok.1 h'
              cases h; cases h'
              rw [ih _ _ _ _ _ _ e3 e4]
      have := hmono _ _ _ _ _ _ _ q1 m1
      simpa using this
    subst this
    unfold nbFor
    rw [b1]
    exact q1
  · rw [hmap]; exact c2.map (fun a b h => by simpa using h)
  · intro a
    rw [hmap, List.mem_map]
    constructor
    · rintro ⟨y, hy, rfl⟩; exact ⟨y, rfl, (hsp y).1 hy⟩
    · rintro ⟨y, rfl, hy⟩; exact ⟨y, (hsp y).2 hy, rfl⟩
  · intro e he
    rw [m2.contains_eq hK (by rw [m3, k3]; exact he)]
    congr 1
    rw [decide_eq_decide, m4, k4.mem]
    have hgi0 : ∀ e : Edge, e ∉ ([] : List Edge) := by simp
    constructor
    · rintro ⟨h1 | h1, h2⟩
      · refine ⟨h1, fun h3 => h2 ⟨h3.1, (hsp _).2 ?_, h3.2⟩⟩
        rw [← h3.1]; exact h1
      · simp at h1
    · rintro ⟨h1, h2⟩
      exact ⟨Or.inl h1, fun h3 => h2 ⟨h3.1, h3.2.2⟩⟩

/-- Instance: two buffered edges out of 0 on 35 vertices; the loop deletes both. -/
example : ∃ g g' : DK refK2, run refK2 realSizing 35 (List.map Op.add [(0, 1), (0, 2)]) = .ok g ∧
    [(0, 1), (0, 2)].length ≤ realSizing.maxsz 35 0 ∧
    nbFor realSizing 0 (fun _ a => if (fun _ => true) a then [Op.del (0, a.toNat)] else []) 9 g =
      .ok ([2, 1], g') ∧ g'.numberEdges = 0 := by
  have hc : check (run refK2 hybSizing 35 (List.map Op.add [(0, 1), (0, 2)])) (fun g =>
      check (nbFor hybSizing 0 (fun _ a => if (fun _ => true) a then [Op.del (0, a.toNat)] else []) 9 g)
        (fun r => decide (r.1 = [2, 1] ∧ r.2.numberEdges = 0 ∧ 2 ≤ hybSizing.maxsz 35 0))) = true := by
    decide +kernel
  rw [← realSizing_eq_hyb] at hc
  obtain ⟨g, hg, hc⟩ := check_iff.1 hc
  obtain ⟨⟨vs, g'⟩, hl, hc⟩ := check_iff.1 hc
  simp only [decide_eq_true_eq] at hc
  obtain ⟨rfl, h2, h3⟩ := hc
  exact ⟨g, g', hg, h3, hl, h2⟩

end DK2
