import Verif.Bits
/-!
# Facts about the bit encoding
-/

namespace DK2
namespace Bits

/-- A tree predicate: an edge below a child is below the node. -/
def Closed (A : List Nat → Bool) : Prop := ∀ p c, A (p ++ [c]) = true → A p = true

/-- The children of `p` that own a group. -/
def kids (b : Nat) (A : List Nat → Bool) (p : List Nat) : List (List Nat) :=
  ((List.range b).map (fun c => p ++ [c])).filter A

/-- The group of node `p`. -/
def group (b : Nat) (A : List Nat → Bool) (p : List Nat) : List Bool :=
  (List.range b).map (fun c => A (p ++ [c]))

theorem nodes_succ (b : Nat) (A : List Nat → Bool) (d : Nat) :
    nodes b A (d + 1) = (nodes b A d).flatMap (kids b A) := rfl

theorem groups_eq (b : Nat) (A : List Nat → Bool) (ps : List (List Nat)) :
    groups b A ps = ps.flatMap (group b A) := rfl

@[simp] theorem groups_nil (b : Nat) (A : List Nat → Bool) : groups b A [] = [] := rfl

theorem groups_cons (b : Nat) (A : List Nat → Bool) (p : List Nat) (ps : List (List Nat)) :
    groups b A (p :: ps) = group b A p ++ groups b A ps := by simp [groups, group]

theorem groups_append (b : Nat) (A : List Nat → Bool) (ps qs : List (List Nat)) :
    groups b A (ps ++ qs) = groups b A ps ++ groups b A qs := by simp [groups]

@[simp] theorem group_length (b : Nat) (A : List Nat → Bool) (p : List Nat) : (group b A p).length = b := by
  simp [group]

theorem groups_length (b : Nat) (A : List Nat → Bool) (ps : List (List Nat)) :
    (groups b A ps).length = b * ps.length := by
  induction ps with
  | nil => simp
  | cons p ps ih => rw [groups_cons, List.length_append, ih, group_length, List.length_cons]; ring

theorem group_count (b : Nat) (A : List Nat → Bool) (p : List Nat) :
    (group b A p).count true = (kids b A p).length := by
  simp only [group, kids, List.count_eq_countP, List.countP_map, List.filter_map, List.length_map,
    ← List.countP_eq_length_filter]
  congr 1
  funext c
  simp

theorem groups_count (b : Nat) (A : List Nat → Bool) (ps : List (List Nat)) :
    (groups b A ps).count true = (ps.flatMap (kids b A)).length := by
  induction ps with
  | nil => simp
  | cons p ps ih =>
    rw [groups_cons, List.count_append, ih, group_count, List.flatMap_cons, List.length_append]

/-- The bits of the levels below `d`. -/
def upto (b : Nat) (A : List Nat → Bool) (d : Nat) : List Bool := (List.range d).flatMap (bits b A)

theorem tBits_eq (b : Nat) (A : List Nat → Bool) (h : Nat) : tBits b A h = upto b A (h - 1) := rfl

theorem upto_succ (b : Nat) (A : List Nat → Bool) (d : Nat) :
    upto b A (d + 1) = upto b A d ++ bits b A d := by
  simp [upto, List.range_succ]

/-- How many nodes own a group in the levels below `d`. -/
def cnt (b : Nat) (A : List Nat → Bool) : Nat → Nat
  | 0 => 0
  | d + 1 => cnt b A d + (nodes b A d).length

theorem upto_length (b : Nat) (A : List Nat → Bool) (d : Nat) : (upto b A d).length = b * cnt b A d := by
  induction d with
  | zero => simp [upto, cnt]
  | succ d ih => rw [upto_succ, List.length_append, ih, bits, groups_length, cnt]; ring

theorem upto_count (b : Nat) (A : List Nat → Bool) (d : Nat) :
    (upto b A d).count true + 1 = cnt b A (d + 1) := by
  induction d with
  | zero => simp [upto, cnt, nodes]
  | succ d ih =>
    rw [upto_succ, List.count_append, bits, groups_count, ← nodes_succ]
    rw [cnt, ← ih]; omega

theorem upto_split (b : Nat) (A : List Nat → Bool) {d m : Nat} (h : d < m) :
    ∃ post, upto b A m = upto b A d ++ bits b A d ++ post := by
  obtain ⟨j, rfl⟩ : ∃ j, m = d + 1 + j := ⟨m - (d + 1), by omega⟩
  clear h
  induction j with
  | zero => exact ⟨[], by rw [Nat.add_zero, upto_succ]; simp⟩
  | succ j ih =>
    obtain ⟨post, hp⟩ := ih
    exact ⟨post ++ bits b A (d + 1 + j), by
      rw [show d + 1 + (j + 1) = d + 1 + j + 1 by omega, upto_succ, hp]; simp⟩

theorem kids_filter {b : Nat} {A U : List Nat → Bool} (hs : ∀ p, A p = true → U p = true)
    (p : List Nat) : (kids b U p).filter A = kids b A p := by
  unfold kids
  rw [List.filter_filter]
  congr 1
  funext q
  cases h : A q
  · simp
  · simp [hs q h]

theorem kids_of_not {b : Nat} {A : List Nat → Bool} (hc : Closed A) {p : List Nat} (h : A p = false) :
    kids b A p = [] := by
  unfold kids
  rw [List.filter_eq_nil_iff]
  intro q hq
  simp only [List.mem_map, List.mem_range] at hq
  obtain ⟨c, _, rfl⟩ := hq
  intro h'
  rw [hc p c h'] at h
  cases h

theorem flatMap_filter_kids {b : Nat} {A U : List Nat → Bool} (hs : ∀ p, A p = true → U p = true)
    (hc : Closed A) (ps : List (List Nat)) :
    (ps.flatMap (kids b U)).filter A = (ps.filter A).flatMap (kids b A) := by
  induction ps with
  | nil => rfl
  | cons p ps ih =>
    rw [List.flatMap_cons, List.filter_append, ih, kids_filter hs]
    cases h : A p
    · simp [h, kids_of_not hc h]
    · simp [h]

theorem nodes_filter {b : Nat} {A U : List Nat → Bool} (hs : ∀ p, A p = true → U p = true)
    (hc : Closed A) (h0 : A [] = true) (d : Nat) : (nodes b U d).filter A = nodes b A d := by
  induction d with
  | zero => simp [nodes, h0]
  | succ d ih => rw [nodes_succ, flatMap_filter_kids hs hc, ih, nodes_succ]

theorem nodes_mem {b : Nat} {A : List Nat → Bool} (h0 : A [] = true) {d : Nat} {p : List Nat}
    (h : p ∈ nodes b A d) : A p = true ∧ p.length = d := by
  cases d with
  | zero => simp [nodes] at h; subst h; exact ⟨h0, rfl⟩
  | succ d =>
    induction d generalizing p with
    | zero =>
      simp only [nodes, List.mem_flatMap, List.mem_filter, List.mem_map, List.mem_range, List.mem_singleton] at h
      obtain ⟨q, rfl, ⟨c, _, rfl⟩, ha⟩ := h
      exact ⟨ha, by simp⟩
    | succ d ih =>
      rw [nodes_succ] at h
      simp only [kids, List.mem_flatMap, List.mem_filter, List.mem_map, List.mem_range] at h
      obtain ⟨q, hq, ⟨c, _, rfl⟩, ha⟩ := h
      exact ⟨ha, by simp [(ih hq).2]⟩

theorem kids_nodup (b : Nat) (A : List Nat → Bool) (p : List Nat) : (kids b A p).Nodup := by
  unfold kids
  apply List.Nodup.filter
  apply List.Nodup.map _ List.nodup_range
  intro a c h
  simpa using h

theorem nodes_nodup (b : Nat) (A : List Nat → Bool) (d : Nat) : (nodes b A d).Nodup := by
  induction d with
  | zero => simp [nodes]
  | succ d ih =>
    rw [nodes_succ, List.nodup_flatMap]
    refine ⟨fun p _ => kids_nodup b A p, ?_⟩
    refine ih.pairwise_of_forall_ne ?_
    intro p _ q _ hne r hp hq
    simp only [kids, List.mem_filter, List.mem_map, List.mem_range] at hp hq
    obtain ⟨⟨c, _, h1⟩, _⟩ := hp
    obtain ⟨⟨c', _, h2⟩, _⟩ := hq
    rw [← h1] at h2
    exact hne (by simpa using (List.append_inj' h2 rfl).1.symm)

theorem mem_nodes_iff {b : Nat} {A : List Nat → Bool} (hc : Closed A) {d : Nat} (hd : 0 < d) {p : List Nat} :
    p ∈ nodes b A d ↔ p.length = d ∧ A p = true ∧ ∀ c ∈ p, c < b := by
  obtain ⟨d, rfl⟩ : ∃ j, d = j + 1 := ⟨d - 1, by omega⟩
  clear hd
  induction d generalizing p with
  | zero =>
    simp only [nodes, List.mem_flatMap, List.mem_filter, List.mem_map, List.mem_range, List.mem_singleton]
    constructor
    · rintro ⟨q, rfl, ⟨c, h1, rfl⟩, ha⟩
      exact ⟨rfl, ha, by simpa using h1⟩
    · rintro ⟨h1, h2, h3⟩
      match p, h1 with
      | [c], _ => exact ⟨[], rfl, ⟨c, h3 c (by simp), rfl⟩, h2⟩
  | succ d ih =>
    rw [nodes_succ]
    simp only [kids, List.mem_flatMap, List.mem_filter, List.mem_map, List.mem_range]
    constructor
    · rintro ⟨q, hq, ⟨c, h1, rfl⟩, ha⟩
      obtain ⟨i1, i2, i3⟩ := ih.1 hq
      refine ⟨by simp [i1], ha, ?_⟩
      intro c' hc'
      rcases List.mem_append.1 hc' with h | h
      · exact i3 c' h
      · simp at h; omega
    · rintro ⟨h1, h2, h3⟩
      have hne : p ≠ [] := by intro h; subst h; simp at h1
      have hp := List.dropLast_append_getLast hne
      refine ⟨p.dropLast, ?_, ⟨p.getLast hne, h3 _ (List.getLast_mem hne), hp⟩, h2⟩
      rw [ih]
      refine ⟨by simp [h1], hc p.dropLast (p.getLast hne) (by rw [hp]; exact h2), ?_⟩
      intro c hcc
      exact h3 c (List.dropLast_subset p hcc)

/-! ### paths -/

@[simp] theorem path_length (k h : Nat) (e : Edge) : (path k h e).length = h := by
  induction h with
  | zero => rfl
  | succ h ih => simp [path, ih]

theorem path_lt {k h : Nat} (hk : 0 < k) (e : Edge) : ∀ c ∈ path k h e, c < k * k := by
  induction h with
  | zero => simp [path]
  | succ h ih =>
    intro c hc
    simp only [path, List.mem_cons] at hc
    rcases hc with rfl | hc
    · have h1 := Nat.mod_lt (e.1 / k ^ h) hk
      have h2 := Nat.mod_lt (e.2 / k ^ h) hk
      nlinarith
    · exact ih c hc

theorem path_inj_mod {k h : Nat} (hk : 0 < k) {e e' : Edge} (hp : path k h e = path k h e') :
    e.1 % k ^ h = e'.1 % k ^ h ∧ e.2 % k ^ h = e'.2 % k ^ h := by
  induction h with
  | zero => simp [Nat.mod_one]
  | succ h ih =>
    simp only [path, List.cons.injEq] at hp
    obtain ⟨h1, h2⟩ := hp
    obtain ⟨i1, i2⟩ := ih h2
    have a1 := Nat.mod_lt (e.1 / k ^ h) hk
    have a2 := Nat.mod_lt (e.2 / k ^ h) hk
    have a3 := Nat.mod_lt (e'.1 / k ^ h) hk
    have a4 := Nat.mod_lt (e'.2 / k ^ h) hk
    have q1 : (e.1 / k ^ h) % k = (e'.1 / k ^ h) % k := by
      have := congrArg (· / k) h1
      rwa [Nat.mul_comm _ k, Nat.mul_comm _ k, Nat.mul_add_div hk, Nat.mul_add_div hk,
        Nat.div_eq_of_lt a2, Nat.div_eq_of_lt a4, Nat.add_zero, Nat.add_zero] at this
    have q2 : (e.2 / k ^ h) % k = (e'.2 / k ^ h) % k := by rw [q1] at h1; omega
    rw [pow_succ, Nat.mod_mul, Nat.mod_mul, Nat.mod_mul, Nat.mod_mul, i1, i2, q1, q2]
    exact ⟨rfl, rfl⟩

theorem path_inj {k h n : Nat} (hk : 0 < k) (hn : n ≤ k ^ h) {e e' : Edge} (he : InRange n e)
    (he' : InRange n e') (hp : path k h e = path k h e') : e = e' := by
  obtain ⟨h1, h2⟩ := path_inj_mod hk hp
  rw [Nat.mod_eq_of_lt (lt_of_lt_of_le he.1 hn), Nat.mod_eq_of_lt (lt_of_lt_of_le he'.1 hn)] at h1
  rw [Nat.mod_eq_of_lt (lt_of_lt_of_le he.2 hn), Nat.mod_eq_of_lt (lt_of_lt_of_le he'.2 hn)] at h2
  exact Prod.ext h1 h2

/-! ### `below` -/

theorem below_iff {k h : Nat} {E : List Edge} {p : List Nat} :
    below k h E p = true ↔ ∃ e ∈ E, p <+: path k h e := by
  simp [below]

theorem below_closed (k h : Nat) (E : List Edge) : Closed (below k h E) := by
  intro p c hp
  rw [below_iff] at hp ⊢
  obtain ⟨e, h1, h2⟩ := hp
  exact ⟨e, h1, (List.prefix_append p [c]).trans h2⟩

theorem below_append (k h : Nat) (E F : List Edge) (p : List Nat) :
    below k h (E ++ F) p = (below k h E p || below k h F p) := by simp [below]

theorem below_nil {k h : Nat} {E : List Edge} (hE : E ≠ []) : below k h E [] = true := by
  rw [below_iff]
  obtain ⟨e, he⟩ := List.exists_mem_of_ne_nil E hE
  exact ⟨e, he, List.nil_prefix⟩

theorem below_congr {k h : Nat} {E F : List Edge} (hm : ∀ e, e ∈ E ↔ e ∈ F) : below k h E = below k h F := by
  funext p
  rw [Bool.eq_iff_iff, below_iff, below_iff]
  simp only [hm]

theorem below_full {k h n : Nat} (hk : 0 < k) (hn : n ≤ k ^ h) {E : List Edge} (hE : ∀ e ∈ E, InRange n e)
    {e : Edge} (he : InRange n e) : below k h E (path k h e) = true ↔ e ∈ E := by
  rw [below_iff]
  constructor
  · rintro ⟨e', h1, h2⟩
    have := h2.eq_of_length (by simp)
    rwa [path_inj hk hn he (hE e' h1) this]
  · intro h1
    exact ⟨e, h1, List.prefix_rfl⟩

/-- The leaves of the tree are the cells of the edges. -/
theorem mem_leaves {k h : Nat} (hk : 0 < k) (hh : 0 < h) {E : List Edge} {p : List Nat} :
    p ∈ nodes (k * k) (below k h E) h ↔ ∃ e ∈ E, p = path k h e := by
  rw [mem_nodes_iff (below_closed k h E) hh, below_iff]
  constructor
  · rintro ⟨h1, ⟨e, he, hp⟩, _⟩
    exact ⟨e, he, hp.eq_of_length (by simp [h1])⟩
  · rintro ⟨e, he, rfl⟩
    exact ⟨by simp, ⟨e, he, List.prefix_rfl⟩, path_lt hk e⟩

/-- The number of 1s in the last level is the number of distinct edges. -/
theorem lBits_count {k h n : Nat} (hk : 0 < k) (hh : 0 < h) (hn : n ≤ k ^ h) {E : List Edge}
    (hE : ∀ e ∈ E, InRange n e) :
    (lBits (k * k) (below k h E) h).count true = E.dedup.length := by
  obtain ⟨d, rfl⟩ : ∃ j, h = j + 1 := ⟨h - 1, by omega⟩
  unfold lBits bits
  rw [groups_count, Nat.add_sub_cancel, ← nodes_succ]
  rw [← List.length_map (f := path k (d + 1)) (as := E.dedup)]
  apply List.Perm.length_eq
  rw [List.perm_ext_iff_of_nodup (nodes_nodup _ _ _)]
  · intro p
    rw [mem_leaves hk hh]
    simp only [List.mem_map, List.mem_dedup]
    constructor
    · rintro ⟨e, h1, rfl⟩; exact ⟨e, h1, rfl⟩
    · rintro ⟨e, h1, rfl⟩; exact ⟨e, h1, rfl⟩
  · apply List.Nodup.map_on _ (List.nodup_dedup E)
    intro e he e' he' hp
    exact path_inj hk hn (hE e (List.mem_dedup.1 he)) (hE e' (List.mem_dedup.1 he')) hp

/-! ### navigation -/

/-- The usual query on the encoding, `adj` of a `k2_tree`: the children of the node at position `i` of `T` start
at `rank1(T, i+1) * b`; `s` is where the current group starts. -/
def cell (b : Nat) (T L : List Bool) : List Nat → Nat → Option Bool
  | [], _ => none
  | [c], s => L[s + c - T.length]?
  | c :: cs, s =>
    match T[s + c]? with
    | none => none
    | some false => some false
    | some true => cell b T L cs ((T.take (s + c + 1)).count true * b)

theorem group_take_count {b : Nat} {A : List Nat → Bool} {p : List Nat} {c : Nat} (hc : c < b)
    (ha : A (p ++ [c]) = true) :
    ∃ u v, kids b A p = u ++ (p ++ [c]) :: v ∧ ((group b A p).take (c + 1)).count true = u.length + 1 := by
  have hr : List.range b = List.range c ++ c :: List.map (· + (c + 1)) (List.range (b - (c + 1))) := by
    have h1 : b = (c + 1) + (b - (c + 1)) := by omega
    conv_lhs => rw [h1, List.range_add, List.range_succ]
    simp [Nat.add_comm]
  refine ⟨((List.range c).map (fun c => p ++ [c])).filter A,
    ((List.map (· + (c + 1)) (List.range (b - (c + 1)))).map (fun c => p ++ [c])).filter A, ?_, ?_⟩
  · unfold kids
    rw [hr, List.map_append, List.filter_append, List.map_cons, List.filter_cons, if_pos ha]
  · have h2 : (group b A p).take (c + 1) = ((List.range c).map (fun c => A (p ++ [c]))) ++ [true] := by
      unfold group
      rw [hr, List.map_append, List.map_cons, ha, List.take_append, List.take_of_length_le (by simp)]
      simp
    rw [h2, List.count_append]
    simp only [List.count_eq_countP, List.countP_map, List.filter_map, List.length_map,
      ← List.countP_eq_length_filter]
    simp [Function.comp_def]

theorem bits_split {b : Nat} {A : List Nat → Bool} {d : Nat} {x y : List (List Nat)} {p : List Nat}
    (hx : nodes b A d = x ++ p :: y) :
    bits b A d = groups b A x ++ group b A p ++ groups b A y := by
  unfold bits; rw [hx, groups_append, groups_cons]; simp

/-- Reading child `c` of a node. -/
theorem read_group {b : Nat} {A : List Nat → Bool} {p : List Nat} {pre post : List Bool} {c : Nat} (hc : c < b) :
    (pre ++ group b A p ++ post)[pre.length + c]? = some (A (p ++ [c])) := by
  rw [List.append_assoc, List.getElem?_append_right (by omega), Nat.add_sub_cancel_left,
    List.getElem?_append_left (by simpa using hc)]
  simp [group, hc]

/-- Navigation from the node `p` of level `d` along `cs`. -/
theorem cell_spec {b h : Nat} {A : List Nat → Bool} (hc : Closed A) : ∀ (cs : List Nat) (d : Nat)
    (x y : List (List Nat)) (p : List Nat), cs ≠ [] → d + cs.length = h → nodes b A d = x ++ p :: y →
    (∀ c ∈ cs, c < b) →
    cell b (tBits b A h) (lBits b A h) cs (b * (cnt b A d + x.length)) = some (A (p ++ cs)) := by
  intro cs
  induction cs with
  | nil => intro d x y p h; exact absurd rfl h
  | cons c cs ih =>
    intro d x y p _ hd hx hlt
    have hcb : c < b := hlt c (by simp)
    cases cs with
    | nil =>
      simp only [List.length_cons, List.length_nil, Nat.zero_add] at hd
      unfold cell
      have h1 : h - 1 = d := by omega
      rw [tBits_eq, upto_length, lBits, h1, bits_split hx]
      rw [show b * (cnt b A d + x.length) + c - b * cnt b A d = (groups b A x).length + c by
        rw [groups_length, Nat.mul_add]; omega]
      exact read_group hcb
    | cons c' cs =>
      simp only [List.length_cons] at hd
      have hdh : d < h - 1 := by omega
      obtain ⟨post, hpost⟩ := upto_split b A hdh
      have hT : tBits b A h = (upto b A d ++ groups b A x) ++ group b A p ++ (groups b A y ++ post) := by
        rw [tBits_eq, hpost, bits_split hx]; simp
      have hlen : (upto b A d ++ groups b A x).length = b * (cnt b A d + x.length) := by
        rw [List.length_append, upto_length, groups_length]; ring
      have hread : (tBits b A h)[b * (cnt b A d + x.length) + c]? = some (A (p ++ [c])) := by
        rw [hT, ← hlen]; exact read_group hcb
      unfold cell
      rw [hread]
      cases ha : A (p ++ [c]) with
      | false =>
        simp only
        have : A (p ++ c :: c' :: cs) = false := by
          by_contra hne
          rw [Bool.not_eq_false] at hne
          have key : ∀ (l : List Nat) (q : List Nat), A (q ++ l) = true → A q = true := by
            intro l
            induction l using List.reverseRecOn with
            | nil => intro q hq; simpa using hq
            | append_singleton l a ihl =>
              intro q hq
              rw [← List.append_assoc] at hq
              exact ihl q (hc _ _ hq)
          rw [show p ++ c :: c' :: cs = (p ++ [c]) ++ (c' :: cs) by simp] at hne
          rw [key _ _ hne] at ha
          cases ha
        rw [this]
      | true =>
        simp only
        obtain ⟨u, v, hu, hcount⟩ := group_take_count (p := p) hcb ha
        have htake : (tBits b A h).take (b * (cnt b A d + x.length) + c + 1) =
            upto b A d ++ groups b A x ++ (group b A p).take (c + 1) := by
          rw [hT, ← hlen, List.append_assoc (upto b A d ++ groups b A x),
            show (upto b A d ++ groups b A x).length + c + 1 =
            (upto b A d ++ groups b A x).length + (c + 1) by omega, List.take_length_add_append,
            List.take_append_of_le_length (by rw [group_length]; omega)]
        rw [htake, List.count_append, List.count_append, hcount, groups_count]
        have hn : nodes b A (d + 1) = (x.flatMap (kids b A) ++ u) ++ (p ++ [c]) :: (v ++ y.flatMap (kids b A)) := by
          rw [nodes_succ, hx, List.flatMap_append, List.flatMap_cons, hu]; simp
        have := ih (d + 1) _ _ _ (by simp) (by simp only [List.length_cons]; omega) hn
          (fun c hc => hlt c (List.mem_cons_of_mem _ hc))
        rw [← upto_count] at this
        rw [show ((upto b A d).count true + (x.flatMap (kids b A)).length + (u.length + 1)) * b =
          b * ((upto b A d).count true + 1 + (x.flatMap (kids b A) ++ u).length) by
          rw [List.length_append]; ring, this]
        simp

end Bits

/-- `adj(x,y)` on the encoded tree. -/
def BT.adj (k : Nat) (t : BT) (e : Edge) : Option Bool := Bits.cell (k * k) t.T t.L (Bits.path k t.h e) 0

/-- The encoding of an edge list answers `adj` exactly. -/
theorem BT.encode_adj {k h n : Nat} (hk : 0 < k) (hh : 0 < h) (hn : n ≤ k ^ h) {E : List Edge}
    (hE : ∀ e ∈ E, InRange n e) {e : Edge} (he : InRange n e) :
    (BT.encode k h n E).adj k e = some (decide (e ∈ E)) := by
  have := Bits.cell_spec (b := k * k) (h := h) (A := Bits.below k h E) (Bits.below_closed k h E)
    (Bits.path k h e) 0 [] [] [] (by rw [← List.length_pos_iff]; simpa using hh) (by simp) rfl (Bits.path_lt hk e)
  simp only [Bits.cnt, List.length_nil, Nat.add_zero, Nat.mul_zero, List.nil_append] at this
  rw [BT.adj]
  show Bits.cell _ _ _ _ _ = _
  simp only [BT.encode]
  rw [this]
  congr 1
  rw [Bool.eq_iff_iff, Bits.below_full hk hn hE he, decide_eq_true_eq]

end DK2
