import Verif.BitsProofs
import Verif.K2
/-!
# A bit-level implementation of the contract of `k2_tree`

The bit vectors of `Bits` with the usual rank navigation, and `erase` that clears the bit of the cell in the last level
and counts it as marked, satisfy every law assumed of `k2_tree` (`bitK2_lawful`).  So the laws are consistent with the
layout `union_support.hpp` relies on, and theorems about any lawful tree apply to bit-encoded trees.

The class itself is outside `/repo`; the layout is the one read and written at union_support.hpp:42-55 and 153-196, and the
operations are those `/repo` calls (DKtree.hpp:132, 137, 157, 173, 189, 197-200, 258).
-/

namespace DK2
namespace Bits

/-- The position in `L` of the cell at the end of a way, if its last group exists; as `cell`. -/
def leafPos (b : Nat) (T : List Bool) : List Nat → Nat → Option Nat
  | [], _ => none
  | [c], s => some (s + c - T.length)
  | c :: cs, s =>
    match T[s + c]? with
    | some true => leafPos b T cs ((T.take (s + c + 1)).count true * b)
    | _ => none

theorem leafPos_spec {b h : Nat} {A : List Nat → Bool} (hc : Closed A) : ∀ (cs : List Nat) (d : Nat)
    (x y : List (List Nat)) (p : List Nat), cs ≠ [] → d + cs.length = h → nodes b A d = x ++ p :: y →
    (∀ c ∈ cs, c < b) → A (p ++ cs) = true →
    ∃ x' y' q c, nodes b A (h - 1) = x' ++ q :: y' ∧ p ++ cs = q ++ [c] ∧ c < b ∧
      leafPos b (tBits b A h) cs (b * (cnt b A d + x.length)) = some ((groups b A x').length + c) := by
  intro cs
  induction cs with
  | nil => intro d x y p h; exact absurd rfl h
  | cons c cs ih =>
    intro d x y p _ hd hx hlt hA
    have hcb : c < b := hlt c (by simp)
    cases cs with
    | nil =>
      simp only [List.length_cons, List.length_nil, Nat.zero_add] at hd
      have h1 : h - 1 = d := by omega
      refine ⟨x, y, p, c, by rw [h1]; exact hx, rfl, hcb, ?_⟩
      unfold leafPos
      rw [tBits_eq, upto_length, h1, groups_length, Nat.mul_add]
      congr 1
      omega
    | cons c' cs =>
      simp only [List.length_cons] at hd
      have hdh : d < h - 1 := by omega
      obtain ⟨post, hpost⟩ := upto_split b A hdh
      have hT : tBits b A h = (upto b A d ++ groups b A x) ++ group b A p ++ (groups b A y ++ post) := by
        rw [tBits_eq, hpost, bits_split hx]; simp
      have hlen : (upto b A d ++ groups b A x).length = b * (cnt b A d + x.length) := by
        rw [List.length_append, upto_length, groups_length]; ring
      have hread : (tBits b A h)[b * (cnt b A d + x.length) + c]? = some (A (p ++ [c])) := by
        rw [hT, ← hlen]; exact read_group hcb
      have ha : A (p ++ [c]) = true := by
        have key : ∀ (l : List Nat) (q : List Nat), A (q ++ l) = true → A q = true := by
          intro l
          induction l using List.reverseRecOn with
          | nil => intro q hq; simpa using hq
          | append_singleton l a ihl =>
            intro q hq
            rw [← List.append_assoc] at hq
            exact ihl q (hc _ _ hq)
        rw [show p ++ c :: c' :: cs = (p ++ [c]) ++ (c' :: cs) by simp] at hA
        exact key _ _ hA
      obtain ⟨u, v, hu, hcount⟩ := group_take_count (p := p) hcb ha
      have htake : (tBits b A h).take (b * (cnt b A d + x.length) + c + 1) =
          upto b A d ++ groups b A x ++ (group b A p).take (c + 1) := by
        rw [hT, ← hlen, List.append_assoc (upto b A d ++ groups b A x),
          show (upto b A d ++ groups b A x).length + c + 1 =
          (upto b A d ++ groups b A x).length + (c + 1) by omega, List.take_length_add_append,
          List.take_append_of_le_length (by rw [group_length]; omega)]
      have hn : nodes b A (d + 1) = (x.flatMap (kids b A) ++ u) ++ (p ++ [c]) :: (v ++ y.flatMap (kids b A)) := by
        rw [nodes_succ, hx, List.flatMap_append, List.flatMap_cons, hu]; simp
      obtain ⟨x', y', q, cc, h1, h2, h3, h4⟩ := ih (d + 1) _ _ _ (by simp) (by simp only [List.length_cons]; omega) hn
        (fun c hc => hlt c (List.mem_cons_of_mem _ hc)) (by simpa using hA)
      refine ⟨x', y', q, cc, h1, by simpa using h2, h3, ?_⟩
      unfold leafPos
      rw [hread, ha]
      simp only
      rw [htake, List.count_append, List.count_append, hcount, groups_count]
      rw [← upto_count] at h4
      rw [show ((upto b A d).count true + (x.flatMap (kids b A)).length + (u.length + 1)) * b =
        b * ((upto b A d).count true + 1 + (x.flatMap (kids b A) ++ u).length) by
        rw [List.length_append]; ring, h4]

/-! ### Clearing one cell -/

/-- `A` without the cell `r`. -/
def without (A : List Nat → Bool) (r p : List Nat) : Bool := A p && !(r.isPrefixOf p)

theorem without_closed {A : List Nat → Bool} (hc : Closed A) (r : List Nat) : Closed (without A r) := by
  intro p c h
  simp only [without, Bool.and_eq_true, Bool.not_eq_true', ← Bool.not_eq_true, List.isPrefixOf_iff_prefix] at h ⊢
  exact ⟨hc p c h.1, fun hp => h.2 (hp.trans (List.prefix_append p [c]))⟩

theorem without_short {A : List Nat → Bool} {r p : List Nat} (h : p.length < r.length) : without A r p = A p := by
  have : r.isPrefixOf p = false := by
    rw [← Bool.not_eq_true, List.isPrefixOf_iff_prefix]
    intro hp
    have := hp.length_le
    omega
  simp [without, this]

theorem nodes_length {b : Nat} {A : List Nat → Bool} {d : Nat} {p : List Nat} (h : p ∈ nodes b A d) : p.length = d := by
  induction d generalizing p with
  | zero => simp [nodes] at h; subst h; rfl
  | succ d ih =>
    rw [nodes_succ] at h
    simp only [kids, List.mem_flatMap, List.mem_filter, List.mem_map, List.mem_range] at h
    obtain ⟨q, hq, ⟨c, _, rfl⟩, _⟩ := h
    simp [ih hq]

theorem nodes_without {b : Nat} {A : List Nat → Bool} {r : List Nat} : ∀ {d : Nat}, d < r.length →
    nodes b (without A r) d = nodes b A d := by
  intro d
  induction d with
  | zero => intro _; rfl
  | succ d ih =>
    intro h
    rw [nodes_succ, nodes_succ, ih (by omega)]
    apply List.flatMap_congr
    intro p hp
    unfold kids
    apply List.filter_congr
    intro q hq
    obtain ⟨c, _, rfl⟩ := List.mem_map.1 hq
    exact without_short (by simp [nodes_length hp]; omega)

theorem bits_without {b : Nat} {A : List Nat → Bool} {r : List Nat} {d : Nat} (h : d + 1 < r.length) :
    bits b (without A r) d = bits b A d := by
  unfold bits groups
  rw [nodes_without (by omega)]
  apply List.flatMap_congr
  intro p hp
  apply List.map_congr_left
  intro c _
  exact without_short (by simp [nodes_length hp]; omega)

theorem tBits_without {b : Nat} {A : List Nat → Bool} {r : List Nat} : tBits b (without A r) r.length = tBits b A r.length := by
  unfold tBits
  apply List.flatMap_congr
  intro d hd
  have := List.mem_range.1 hd
  exact bits_without (by omega)

/-- Clearing the bit of a cell gives the last level without the cell. -/
theorem lBits_without {b : Nat} {A : List Nat → Bool} {r : List Nat} {x y : List (List Nat)} {q : List Nat} {c : Nat}
    (hx : nodes b A (r.length - 1) = x ++ q :: y) (hr : r = q ++ [c]) (hc : c < b) :
    (lBits b A r.length).set ((groups b A x).length + c) false = lBits b (without A r) r.length := by
  have hpos : r.length - 1 < r.length := by rw [hr]; simp
  have hx' : nodes b (without A r) (r.length - 1) = x ++ q :: y := by rw [nodes_without hpos, hx]
  have hnd := nodes_nodup b A (r.length - 1)
  rw [hx] at hnd
  have hl : ∀ p ∈ x ++ q :: y, p.length + 1 = r.length := by
    intro p hp
    have := nodes_length (b := b) (A := A) (d := r.length - 1) (p := p) (by rw [hx]; exact hp)
    omega
  have hsame : ∀ p ∈ x ++ q :: y, ∀ c', p ++ [c'] ≠ r → without A r (p ++ [c']) = A (p ++ [c']) := by
    intro p hp c' hne
    have : r.isPrefixOf (p ++ [c']) = false := by
      rw [← Bool.not_eq_true, List.isPrefixOf_iff_prefix]
      intro h
      exact hne (h.eq_of_length (by simp [hl p hp])).symm
    simp [without, this]
  have hoth : ∀ p ∈ x ++ q :: y, p ≠ q → group b (without A r) p = group b A p := by
    intro p hp hne
    unfold group
    apply List.map_congr_left
    intro c' _
    refine hsame p hp c' ?_
    rw [hr]
    intro h
    exact hne (List.append_inj' h rfl).1
  have hgs : ∀ l : List (List Nat), (∀ p ∈ l, p ∈ x ++ q :: y ∧ p ≠ q) → groups b (without A r) l = groups b A l := by
    intro l hl
    rw [groups_eq, groups_eq]
    apply List.flatMap_congr
    intro p hp
    exact hoth p (hl p hp).1 (hl p hp).2
  have hq : group b (without A r) q = (group b A q).set c false := by
    apply List.ext_getElem?
    intro i
    rw [List.getElem?_set]
    unfold group
    simp only [List.getElem?_map, List.length_map, List.length_range]
    by_cases hi : i < b
    · rw [List.getElem?_range hi]
      simp only [Option.map_some]
      split
      · rename_i h; subst h
        have : r.isPrefixOf (q ++ [c]) = true := by rw [List.isPrefixOf_iff_prefix, hr]; exact List.prefix_rfl
        simp [without, this]
      · rename_i h
        rw [hsame q (by simp) i (by rw [hr]; intro h'; simp at h'; omega)]
    · rw [List.getElem?_eq_none (by simpa using hi)]
      simp only [Option.map_none]
      split
      · rename_i h; exact absurd (h ▸ hc) hi
      · rfl
  unfold lBits
  rw [bits_split hx, bits_split hx', hgs x, hgs y, hq]
  · rw [List.append_assoc, List.append_assoc, List.set_append_right _ _ (by omega), Nat.add_sub_cancel_left,
      List.set_append_left _ _ (by rw [group_length]; exact hc)]
  · intro p hp
    refine ⟨by simp [hp], ?_⟩
    rintro rfl
    have := (List.nodup_append.1 hnd).2.1
    exact (List.nodup_cons.1 this).1 hp
  · intro p hp
    refine ⟨by simp [hp], ?_⟩
    rintro rfl
    exact (List.nodup_append.1 hnd).2.2 p hp p (by simp) rfl

end Bits

/-! ## The implementation -/

/-- A bit-encoded tree and its number of erased edges. -/
structure MT where
  bt : BT
  er : Nat

/-- The cells of an `n × n` matrix, row by row. -/
def cells (n : Nat) : List Edge := (List.range n).flatMap (fun x => (List.range n).map (fun y => (x, y)))

theorem mem_cells {n : Nat} {e : Edge} : e ∈ cells n ↔ InRange n e := by
  obtain ⟨x, y⟩ := e
  simp [cells, InRange]

theorem cells_nodup (n : Nat) : (cells n).Nodup := by
  unfold cells
  rw [List.nodup_flatMap]
  refine ⟨fun x _ => List.nodup_range.map (fun a b h => by simpa using h), ?_⟩
  refine List.nodup_range.pairwise_of_forall_ne ?_
  intro x _ x' _ hne e h h'
  obtain ⟨_, _, rfl⟩ := List.mem_map.1 h
  obtain ⟨_, _, h2⟩ := List.mem_map.1 h'
  simp at h2
  exact hne h2.1.symm

namespace MT

/-- `k2_tree(edges, n)` (called at DKtree.hpp:132). -/
def build (k : Nat) (H : Nat → Nat) (es : List Edge) (n : Nat) : MT := ⟨BT.encode k (H n) n es, 0⟩

/-- `adj(x,y)` (called at DKtree.hpp:157). -/
def adj (k : Nat) (t : MT) (e : Edge) : Bool := decide (t.bt.adj k e = some true)

/-- The edges, row by row. -/
def edges (k : Nat) (t : MT) : List Edge := (cells t.bt.nv).filter (t.adj k)

/-- `neigh(x)` (called at DKtree.hpp:258). -/
def neigh (k : Nat) (t : MT) (x : Nat) : List Nat := (List.range t.bt.nv).filter (fun y => t.adj k (x, y))

/-- `erase(x,y)` (called at DKtree.hpp:189): clear the bit of the cell. -/
def erase (k : Nat) (t : MT) (e : Edge) : Bool × MT :=
  if t.adj k e then
    match Bits.leafPos (k * k) t.bt.T (Bits.path k t.bt.h e) 0 with
    | some i => (true, ⟨{ t.bt with L := t.bt.L.set i false }, t.er + 1⟩)
    | none => (true, t)
  else (false, t)

/-- The bits encode a set of cells, and the counters agree with it. -/
structure Valid (k : Nat) (H : Nat → Nat) (n : Nat) (t : MT) : Prop where
  nv : t.bt.nv = n
  h : t.bt.h = H n
  enc : ∃ A, Bits.Closed A ∧ t.bt.T = Bits.tBits (k * k) A t.bt.h ∧ t.bt.L = Bits.lBits (k * k) A t.bt.h
  cnt : t.bt.ne = (t.edges k).length + t.er

end MT

/-- Bit-encoded trees as an implementation of `k2_tree`. -/
@[reducible] def bitK2 (k : Nat) (H : Nat → Nat) : K2Impl where
  T := MT
  build := MT.build k H
  empty n := MT.build k H [] n
  adj := MT.adj k
  adjForced t e := (t.adj k e, t)
  erase := MT.erase k
  union a b := MT.build k H (a.edges k ++ b.edges k) a.bt.nv
  total t := t.bt.ne
  marked t := t.er
  edges := MT.edges k
  neigh := MT.neigh k
  valid := MT.Valid k H

namespace MT
variable {k : Nat} {H : Nat → Nat}

/-- The height is enough for the vertices. -/
def Tall (k : Nat) (H : Nat → Nat) : Prop := 0 < k ∧ ∀ n, 1 ≤ H n ∧ n ≤ k ^ H n

theorem mem_edges {t : MT} {e : Edge} : e ∈ t.edges k ↔ InRange t.bt.nv e ∧ t.adj k e = true := by
  unfold edges
  rw [List.mem_filter, mem_cells]

theorem edges_nodup (t : MT) : (t.edges k).Nodup := (cells_nodup _).filter _

theorem build_adj (hT : Tall k H) {es : List Edge} {n : Nat} (hr : ∀ e ∈ es, InRange n e) {e : Edge} (he : InRange n e) :
    (build k H es n).adj k e = decide (e ∈ es) := by
  unfold adj build
  rw [BT.encode_adj hT.1 (hT.2 n).1 (hT.2 n).2 hr he]
  simp

theorem mem_build (hT : Tall k H) {es : List Edge} {n : Nat} (hr : ∀ e ∈ es, InRange n e) (e : Edge) :
    e ∈ (build k H es n).edges k ↔ e ∈ es := by
  rw [mem_edges]
  show InRange n e ∧ _ ↔ _
  constructor
  · rintro ⟨h1, h2⟩
    rw [build_adj hT hr h1] at h2
    simpa using h2
  · intro h
    refine ⟨hr e h, ?_⟩
    rw [build_adj hT hr (hr e h)]
    simpa using h

theorem build_valid (hT : Tall k H) {es : List Edge} {n : Nat} (hr : ∀ e ∈ es, InRange n e) : Valid k H n (build k H es n) := by
  refine ⟨rfl, rfl, ⟨Bits.below k (H n) es, Bits.below_closed _ _ _, rfl, rfl⟩, ?_⟩
  show es.dedup.length = _ + 0
  apply List.Perm.length_eq
  rw [List.perm_ext_iff_of_nodup (List.nodup_dedup es) (edges_nodup _)]
  intro e
  rw [List.mem_dedup, mem_build hT hr]

theorem adj_of_enc (hT : Tall k H) {n : Nat} {t : MT} (h : t.bt.h = H n) {A : List Nat → Bool} (hc : Bits.Closed A)
    (h1 : t.bt.T = Bits.tBits (k * k) A t.bt.h) (h2 : t.bt.L = Bits.lBits (k * k) A t.bt.h) (e : Edge) :
    t.adj k e = A (Bits.path k t.bt.h e) := by
  have hp : 0 < t.bt.h := by rw [h]; exact (hT.2 n).1
  have := Bits.cell_spec (b := k * k) (h := t.bt.h) (A := A) hc (Bits.path k t.bt.h e) 0 [] [] []
    (by rw [← List.length_pos_iff]; simpa using hp) (by simp) rfl (Bits.path_lt hT.1 e)
  simp only [Bits.cnt, List.length_nil, Nat.add_zero, Nat.mul_zero, List.nil_append] at this
  unfold adj BT.adj
  rw [h1, h2, this]
  simp

/-- Erasing a present edge. -/
theorem erase_spec (hT : Tall k H) {n : Nat} {t : MT} {e : Edge} (h : Valid k H n t) (he : InRange n e)
    (ha : t.adj k e = true) :
    ∃ t', t.erase k e = (true, t') ∧ Valid k H n t' ∧ ∀ e', InRange n e' → (t'.adj k e' = true ↔ t.adj k e' = true ∧ e' ≠ e) := by
  obtain ⟨A, hc, h1, h2⟩ := h.enc
  have hp : 0 < t.bt.h := by rw [h.h]; exact (hT.2 n).1
  have hlen : (Bits.path k t.bt.h e).length = t.bt.h := by simp
  have hA : A (Bits.path k t.bt.h e) = true := by rw [← adj_of_enc hT h.h hc h1 h2]; exact ha
  obtain ⟨x, y, q, c, a1, a2, a3, a4⟩ := Bits.leafPos_spec (b := k * k) (h := t.bt.h) hc (Bits.path k t.bt.h e) 0 [] [] []
    (by rw [← List.length_pos_iff]; simpa using hp) (by simp) rfl (Bits.path_lt hT.1 e) (by simpa using hA)
  simp only [Bits.cnt, List.length_nil, Nat.add_zero, Nat.mul_zero, List.nil_append] at a2 a4
  have hw := Bits.lBits_without (b := k * k) (A := A) (r := Bits.path k t.bt.h e) (x := x) (y := y) (q := q) (c := c)
    (by rw [hlen]; exact a1) a2 a3
  have ht := Bits.tBits_without (b := k * k) (A := A) (r := Bits.path k t.bt.h e)
  rw [hlen] at hw ht
  let t' : MT := ⟨{ t.bt with L := t.bt.L.set ((Bits.groups (k * k) A x).length + c) false }, t.er + 1⟩
  have hadj : ∀ e', t'.adj k e' = (t.adj k e' && !((Bits.path k t.bt.h e).isPrefixOf (Bits.path k t.bt.h e'))) := by
    intro e'
    rw [adj_of_enc hT (t := t') h.h (Bits.without_closed hc (Bits.path k t.bt.h e)) (by rw [ht]; exact h1)
      (by rw [← hw, ← h2]), adj_of_enc hT h.h hc h1 h2]
    rfl
  have hiff : ∀ e', InRange n e' → (t'.adj k e' = true ↔ t.adj k e' = true ∧ e' ≠ e) := by
    intro e' he'
    rw [hadj, Bool.and_eq_true, Bool.not_eq_true', ← Bool.not_eq_true, List.isPrefixOf_iff_prefix]
    refine and_congr_right fun _ => not_congr ⟨fun hpre => ?_, ?_⟩
    · exact (Bits.path_inj hT.1 (by rw [h.h]; exact (hT.2 n).2) he he' (hpre.eq_of_length (by simp))).symm
    · rintro rfl; exact List.prefix_rfl
  refine ⟨t', ?_, ⟨h.nv, h.h, ⟨_, Bits.without_closed hc (Bits.path k t.bt.h e), by rw [ht]; exact h1, by rw [← hw, ← h2]⟩, ?_⟩, hiff⟩
  · unfold erase
    rw [ha, if_pos rfl, h1, a4]
  · have hedges : t'.edges k = (t.edges k).filter (fun e' => decide (e' ≠ e)) := by
      unfold edges
      rw [List.filter_filter]
      apply List.filter_congr
      intro e' he'
      have := hiff e' (by rw [← h.nv]; exact mem_cells.1 he')
      rw [Bool.eq_iff_iff, this, Bool.and_eq_true, decide_eq_true_eq]
      tauto
    have := length_filter_ne (edges_nodup (k := k) t) (mem_edges.2 ⟨by rw [h.nv]; exact he, ha⟩)
    show t.bt.ne = _ + (t.er + 1)
    rw [hedges, h.cnt]
    omega

end MT

/-- Bit-encoded trees satisfy every law assumed of `k2_tree`, for every `k ≥ 1` and every sufficient height function. -/
theorem bitK2_lawful {k : Nat} {H : Nat → Nat} (hT : MT.Tall k H) : (bitK2 k H).Lawful where
  build_valid := fun es n _ hr => MT.build_valid hT hr
  build_edges := fun es n _ hr e => MT.mem_build hT hr e
  build_marked := fun _ _ _ _ => rfl
  empty_valid := fun n => MT.build_valid hT (by simp)
  empty_edges := by
    intro n
    rw [List.eq_nil_iff_forall_not_mem]
    intro e he
    have := (MT.mem_build hT (es := []) (n := n) (by simp) e).1 he
    cases this
  edges_nodup := fun n t _ => MT.edges_nodup t
  edges_range := by
    intro n t h e he
    rw [← h.nv]
    exact (MT.mem_edges.1 he).1
  total_eq := fun n t h => h.cnt
  adj_iff := by
    intro n t e h he
    rw [MT.mem_edges, h.nv]
    exact ⟨fun ha => ⟨he, ha⟩, fun ha => ha.2⟩
  neigh_iff := by
    intro n t x y h hx
    rw [MT.mem_edges]
    show y ∈ (List.range t.bt.nv).filter _ ↔ _
    rw [List.mem_filter, List.mem_range, h.nv]
    exact ⟨fun ha => ⟨⟨hx, ha.1⟩, ha.2⟩, fun ha => ⟨ha.1.2, ha.2⟩⟩
  neigh_nodup := fun n t x h hx => List.nodup_range.filter _
  erase_valid := by
    intro n t e h he
    cases ha : t.adj k e with
    | true =>
      obtain ⟨t', h1, h2, _⟩ := MT.erase_spec hT h he ha
      show MT.Valid k H n (t.erase k e).2
      rw [h1]; exact h2
    | false =>
      show MT.Valid k H n (t.erase k e).2
      unfold MT.erase
      rw [ha, if_neg Bool.false_ne_true]; exact h
  erase_fst := by
    intro n t e h he
    show (t.erase k e).1 = t.adj k e
    cases ha : t.adj k e with
    | true =>
      obtain ⟨t', h1, _⟩ := MT.erase_spec hT h he ha
      rw [h1]
    | false => unfold MT.erase; rw [ha, if_neg Bool.false_ne_true]
  erase_edges := by
    intro n t e h he e'
    show e' ∈ (t.erase k e).2.edges k ↔ e' ∈ t.edges k ∧ e' ≠ e
    cases ha : t.adj k e with
    | true =>
      obtain ⟨t', h1, h2, h3⟩ := MT.erase_spec hT h he ha
      rw [h1, MT.mem_edges, MT.mem_edges, h2.nv, h.nv, and_assoc]
      exact and_congr_right fun hr => h3 e' hr
    | false =>
      unfold MT.erase
      rw [ha, if_neg Bool.false_ne_true]
      refine ⟨fun hm => ⟨hm, ?_⟩, fun hm => hm.1⟩
      rintro rfl
      rw [(MT.mem_edges.1 hm).2] at ha
      cases ha
  union_valid := by
    intro n a b ha hb
    have := MT.build_valid hT (es := a.edges k ++ b.edges k) (n := n) (by
      intro e he
      rcases List.mem_append.1 he with h | h
      · rw [← ha.nv]; exact (MT.mem_edges.1 h).1
      · rw [← hb.nv]; exact (MT.mem_edges.1 h).1)
    show MT.Valid k H n (MT.build k H _ a.bt.nv)
    rw [ha.nv]; exact this
  union_edges := by
    intro n a b ha hb e
    show e ∈ (MT.build k H _ a.bt.nv).edges k ↔ _
    rw [MT.mem_build hT (by
      intro e he
      rcases List.mem_append.1 he with h | h
      · exact (MT.mem_edges.1 h).1
      · rw [ha.nv, ← hb.nv]; exact (MT.mem_edges.1 h).1), List.mem_append]
  union_marked := fun _ _ _ _ _ => rfl
  forced_valid := fun n t e h _ => h
  forced_true := by
    intro n t e h he ha e'
    refine ⟨Or.inl, ?_⟩
    rintro (h1 | rfl)
    · exact h1
    · exact MT.mem_edges.2 ⟨by rw [h.nv]; exact he, ha⟩
  forced_false := by
    intro n t e h he ha
    refine ⟨fun hm => ?_, rfl⟩
    have : t.adj k e = true := (MT.mem_edges.1 hm).2
    rw [show (t.adj k e, t).1 = t.adj k e from rfl, this] at ha
    cases ha

/-- `adj_forced` of the bit-encoded trees never adds. -/
theorem bitK2_pure (k : Nat) (H : Nat → Nat) : (bitK2 k H).ForcedPure := fun _ _ => rfl

end DK2
