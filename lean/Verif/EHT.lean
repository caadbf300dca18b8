import Verif.Res
import Mathlib.Data.List.Nodup
import Mathlib.Data.BitVec
import Mathlib.Tactic.Ring
/-!
# Model of `EdgeHashTable` (`include/dktree/EdgeHashTable.hpp:99-199`)

Here coordinates are the 32-bit words of the code (`etype = uint32_t`, graph/Graph.hpp:19) and the hash
function is modelled bit by bit.  `std::unordered_map` itself (library code) is modelled as a table of
chained buckets indexed by `hash % number_of_buckets`.
-/

namespace DK2
namespace EHT

/-- `Edge` with 32-bit coordinates (graph/Graph.hpp:55-77). -/
abbrev E32 := BitVec 32 × BitVec 32

/-- `edge_to_uint64` (EdgeHashTable.hpp:114-120). -/
def key (e : E32) : BitVec 64 := (e.1.setWidth 64 <<< 32) ||| e.2.setWidth 64

/-- The mixing steps of `Hash::operator()` (EdgeHashTable.hpp:103-109), `unsigned long` = 64 bits. -/
def mix (k : BitVec 64) : BitVec 64 :=
  let k := (~~~ k) + (k <<< 18)
  let k := k ^^^ (k >>> 31)
  let k := (k + (k <<< 2)) + (k <<< 4)
  let k := k ^^^ (k >>> 11)
  let k := k + (k <<< 6)
  k ^^^ (k >>> 22)

/-- `Hash::operator()` (EdgeHashTable.hpp:102-112): truncated to 32 bits. -/
def hash (e : E32) : BitVec 32 := (mix (key e)).setWidth 32

/-- `h_table ht` (EdgeHashTable.hpp:132-133): chained buckets, never zero of them. -/
structure HT where
  buckets : List (List (E32 × BitVec 32))

/-- Bucket of an edge. -/
def idx (n : Nat) (e : E32) : Nat := (hash e).toNat % n

/-- `EdgeHashTable(size)` / `EdgeHashTable()` (EdgeHashTable.hpp:136-140): at least one bucket. -/
def HT.new (n : Nat) : HT := ⟨List.replicate (n + 1) []⟩

/-- The chain an edge belongs to. -/
def HT.chain (t : HT) (e : E32) : List (E32 × BitVec 32) :=
  (t.buckets[idx t.buckets.length e]?).getD []

/-- Replace the chain of an edge. -/
def HT.setChain (t : HT) (e : E32) (c : List (E32 × BitVec 32)) : HT :=
  ⟨t.buckets.set (idx t.buckets.length e) c⟩

/-- `ht[Edge(x,y)] = index` (EdgeHashTable.hpp:147-149): overwrite in place or add to the chain. -/
def HT.insert (t : HT) (e : E32) (v : BitVec 32) : HT :=
  t.setChain e ((e, v) :: (t.chain e).filter (fun p => p.1 ≠ e))

/-- `find` (EdgeHashTable.hpp:157-162): the stored index, or -1, as an `int64_t`. -/
def HT.find (t : HT) (e : E32) : Int :=
  match (t.chain e).find? (fun p => p.1 = e) with
  | some p => (p.2.toNat : Int)
  | none => -1

/-- `contains` (EdgeHashTable.hpp:164-166). -/
def HT.contains (t : HT) (e : E32) : Bool := t.find e ≠ -1

/-- `erase` (EdgeHashTable.hpp:168-170). -/
def HT.erase (t : HT) (e : E32) : HT := t.setChain e ((t.chain e).filter (fun p => p.1 ≠ e))

/-- `clear` (EdgeHashTable.hpp:180-182). -/
def HT.clear (t : HT) : HT := ⟨t.buckets.map (fun _ => [])⟩

/-- `reserve(size)` (EdgeHashTable.hpp:151-153), and the automatic rehash of the library: every entry is
moved to a table with another number of buckets. -/
def HT.reserve (t : HT) (n : Nat) : HT :=
  t.buckets.flatten.foldl (fun s p => s.insert p.1 p.2) (HT.new n)

/-- Calls on the table. -/
inductive Call where
  | insert (e : E32) (v : BitVec 32)
  | erase (e : E32)
  | clear
  | reserve (n : Nat)

/-- One call. -/
def HT.step (t : HT) : Call → HT
  | .insert e v => t.insert e v
  | .erase e => t.erase e
  | .clear => t.clear
  | .reserve n => t.reserve n

/-! ## Proofs: buckets do not matter -/

/-- Well-formed table: at least one bucket, entries in their own bucket, no key twice in a bucket. -/
structure HT.WF (t : HT) : Prop where
  pos : 0 < t.buckets.length
  home : ∀ (i : Nat) (c : List (E32 × BitVec 32)) p, t.buckets[i]? = some c → p ∈ c → i = idx t.buckets.length p.1
  nodup : ∀ (i : Nat) (c : List (E32 × BitVec 32)), t.buckets[i]? = some c → (c.map Prod.fst).Nodup

/-- The finite map a table stands for. -/
def HT.get (t : HT) (e : E32) : Option (BitVec 32) :=
  ((t.chain e).find? (fun p => p.1 = e)).map Prod.snd

theorem idx_lt {n : Nat} (h : 0 < n) (e : E32) : idx n e < n := Nat.mod_lt _ h

theorem HT.WF.chain_some {t : HT} (h : t.WF) (e : E32) :
    t.buckets[idx t.buckets.length e]? = some (t.chain e) := by
  have := idx_lt h.pos e
  unfold HT.chain
  rw [List.getElem?_eq_getElem this]; rfl

theorem HT.WF.setChain {t : HT} (h : t.WF) (e : E32) (c : List (E32 × BitVec 32))
    (hc : ∀ p ∈ c, idx t.buckets.length p.1 = idx t.buckets.length e)
    (hn : (c.map Prod.fst).Nodup) :
    (t.setChain e c).WF ∧ ∀ e', (t.setChain e c).chain e' =
      if idx t.buckets.length e' = idx t.buckets.length e then c else t.chain e' := by
  have hlt := idx_lt h.pos e
  refine ⟨⟨by simp [HT.setChain, h.pos], ?_, ?_⟩, ?_⟩
  · intro i c' p hi hp
    simp only [HT.setChain, List.length_set] at hi ⊢
    rw [List.getElem?_set] at hi
    split at hi
    · rename_i hii
      simp at hi; subst hi
      rw [hc p hp, hii]
    · exact h.home i c' p hi hp
  · intro i c' hi
    simp only [HT.setChain] at hi
    rw [List.getElem?_set] at hi
    split at hi
    · simp at hi; subst hi; exact hn
    · exact h.nodup i c' hi
  · intro e'
    unfold HT.chain HT.setChain
    simp only [List.length_set]
    rw [List.getElem?_set]
    by_cases he : idx t.buckets.length e = idx t.buckets.length e'
    · rw [if_pos he, if_pos (by omega), if_pos he.symm]; rfl
    · rw [if_neg he, if_neg (fun hh => he hh.symm)]

theorem find?_filter_ne {c : List (E32 × BitVec 32)} {e e' : E32} (h : e' ≠ e) :
    (c.filter (fun p => p.1 ≠ e)).find? (fun p => p.1 = e') = c.find? (fun p => p.1 = e') := by
  induction c with
  | nil => rfl
  | cons p c ih =>
    by_cases h1 : p.1 = e
    · have h2 : ¬ p.1 = e' := fun hh => h (hh.symm.trans h1)
      simp only [List.filter_cons, h1, ne_eq, not_true_eq_false, decide_false, Bool.false_eq_true,
        if_false, List.find?_cons]
      have h3 : ¬ e = e' := fun hh => h hh.symm
      simp only [h3, decide_false]
      simpa using ih
    · simp only [List.filter_cons, h1, ne_eq, not_false_eq_true, decide_true, if_true, List.find?_cons]
      split
      · rfl
      · simpa using ih

theorem HT.WF.insert {t : HT} (h : t.WF) (e : E32) (v : BitVec 32) :
    (t.insert e v).WF ∧ ∀ e', (t.insert e v).get e' = if e' = e then some v else t.get e' := by
  have hch := h.chain_some e
  obtain ⟨h1, h2⟩ := h.setChain e ((e, v) :: (t.chain e).filter (fun p => p.1 ≠ e)) (by
      intro p hp
      rcases List.mem_cons.1 hp with hp | hp
      · rw [hp]
      · exact (h.home _ _ p hch (List.mem_filter.1 hp).1).symm)
    (by
      rw [List.map_cons, List.nodup_cons]
      refine ⟨?_, ?_⟩
      · intro hm
        obtain ⟨p, hp, hpe⟩ := List.mem_map.1 hm
        have := (List.mem_filter.1 hp).2
        simp [hpe] at this
      · exact (h.nodup _ _ hch).sublist ((List.filter_sublist).map _))
  refine ⟨h1, ?_⟩
  intro e'
  unfold HT.get HT.insert
  rw [h2]
  by_cases he : e' = e
  · subst he; simp
  · rw [if_neg he]
    split
    · rename_i hidx
      have : t.chain e' = t.chain e := by unfold HT.chain; rw [hidx]
      have hne : ¬ e = e' := fun hh => he hh.symm
      rw [List.find?_cons]
      simp only [hne, decide_false]
      rw [find?_filter_ne he, this]
    · rfl

theorem HT.WF.erase {t : HT} (h : t.WF) (e : E32) :
    (t.erase e).WF ∧ ∀ e', (t.erase e).get e' = if e' = e then none else t.get e' := by
  have hch := h.chain_some e
  obtain ⟨h1, h2⟩ := h.setChain e ((t.chain e).filter (fun p => p.1 ≠ e)) (by
      intro p hp
      exact (h.home _ _ p hch (List.mem_filter.1 hp).1).symm)
    ((h.nodup _ _ hch).sublist ((List.filter_sublist).map _))
  refine ⟨h1, ?_⟩
  intro e'
  unfold HT.get HT.erase
  rw [h2]
  by_cases he : e' = e
  · subst he
    rw [if_pos rfl, if_pos rfl]
    rw [Option.map_eq_none_iff, List.find?_eq_none]
    intro p hp
    have := (List.mem_filter.1 hp).2
    simpa using this
  · rw [if_neg he]
    split
    · rename_i hidx
      have : t.chain e' = t.chain e := by unfold HT.chain; rw [hidx]
      rw [find?_filter_ne he, this]
    · rfl

theorem HT.new_wf (n : Nat) : (HT.new n).WF ∧ ∀ e, (HT.new n).get e = none := by
  have hr : ∀ (i : Nat) c, (HT.new n).buckets[i]? = some c → c = [] := by
    intro i c h
    simp only [HT.new] at h
    have := List.mem_of_getElem? h
    exact (List.mem_replicate.1 this).2
  refine ⟨⟨by simp [HT.new], ?_, ?_⟩, ?_⟩
  · intro i c p h hp; rw [hr i c h] at hp; cases hp
  · intro i c h; rw [hr i c h]; simp
  · intro e
    have hpos : 0 < (HT.new n).buckets.length := by simp [HT.new]
    have h1 := idx_lt hpos e
    have : (HT.new n).chain e = [] := by
      unfold HT.chain
      rw [List.getElem?_eq_getElem h1]
      exact hr _ _ (List.getElem?_eq_getElem h1)
    unfold HT.get; rw [this]; rfl

theorem HT.WF.clear {t : HT} (h : t.WF) : t.clear.WF ∧ ∀ e, t.clear.get e = none := by
  have : t.clear = HT.new (t.buckets.length - 1) := by
    have := h.pos
    unfold HT.clear HT.new
    congr 1
    rw [List.map_const', show t.buckets.length - 1 + 1 = t.buckets.length by omega]
  rw [this]; exact HT.new_wf _

theorem foldl_insert_get (l : List (E32 × BitVec 32)) : ∀ {t : HT}, t.WF →
    (l.map Prod.fst).Nodup →
    (l.foldl (fun s p => s.insert p.1 p.2) t).WF ∧
    ∀ e, (l.foldl (fun s p => s.insert p.1 p.2) t).get e =
      match l.find? (fun p => p.1 = e) with
      | some p => some p.2
      | none => t.get e := by
  induction l with
  | nil => intro t h _; exact ⟨h, fun e => rfl⟩
  | cons p l ih =>
    intro t h hn
    rw [List.map_cons, List.nodup_cons] at hn
    obtain ⟨h1, h2⟩ := h.insert p.1 p.2
    obtain ⟨h3, h4⟩ := ih h1 hn.2
    refine ⟨h3, ?_⟩
    intro e
    rw [List.foldl_cons, h4, h2, List.find?_cons]
    by_cases hp : p.1 = e
    · simp only [hp, decide_true]
      have : l.find? (fun q => q.1 = e) = none := by
        rw [List.find?_eq_none]
        intro q hq
        simp only [decide_eq_true_eq]
        intro hh
        exact hn.1 (List.mem_map.2 ⟨q, hq, hh.trans hp.symm⟩)
      rw [this]; simp
    · simp only [hp, decide_false]
      have : ¬ e = p.1 := fun hh => hp hh.symm
      rw [if_neg this]

theorem nodup_flatten_keys {t : HT} (h : t.WF) : (t.buckets.flatten.map Prod.fst).Nodup := by
  rw [List.map_flatten, List.nodup_flatten]
  refine ⟨?_, ?_⟩
  · intro l hl
    obtain ⟨c, hc, rfl⟩ := List.mem_map.1 hl
    obtain ⟨i, hi⟩ := List.getElem?_of_mem hc
    exact h.nodup i c hi
  · rw [List.pairwise_map, List.pairwise_iff_getElem]
    intro i j hi hj hij
    intro e he1 he2
    obtain ⟨p, hp, hpe⟩ := List.mem_map.1 he1
    obtain ⟨q, hq, hqe⟩ := List.mem_map.1 he2
    have e1 := h.home i _ p (List.getElem?_eq_getElem hi) hp
    have e2 := h.home j _ q (List.getElem?_eq_getElem hj) hq
    rw [hpe] at e1; rw [hqe] at e2
    omega

theorem HT.WF.get_flatten {t : HT} (h : t.WF) (e : E32) (v : BitVec 32) :
    t.get e = some v ↔ (e, v) ∈ t.buckets.flatten := by
  unfold HT.get
  rw [Option.map_eq_some_iff]
  constructor
  · rintro ⟨p, hp, rfl⟩
    have h1 := List.mem_of_find?_eq_some hp
    have h2 := List.find?_some hp
    simp only [decide_eq_true_eq] at h2
    rw [List.mem_flatten]
    refine ⟨_, List.mem_of_getElem? (h.chain_some e), ?_⟩
    have : (e, p.2) = p := by rw [← h2]
    rw [this]; exact h1
  · intro hm
    obtain ⟨c, hc, hp⟩ := List.mem_flatten.1 hm
    obtain ⟨i, hi⟩ := List.getElem?_of_mem hc
    have hii := h.home i c _ hi hp
    simp only at hii
    have hcc : c = t.chain e := by
      rw [hii, h.chain_some e] at hi
      exact (Option.some.inj hi).symm
    subst hcc
    cases hf : (t.chain e).find? (fun p => p.1 = e) with
    | none =>
      rw [List.find?_eq_none] at hf
      have := hf _ hp; simp at this
    | some q =>
      have h1 := List.mem_of_find?_eq_some hf
      have h2 := List.find?_some hf
      simp only [decide_eq_true_eq] at h2
      refine ⟨q, rfl, ?_⟩
      have hnd := h.nodup _ _ (h.chain_some e)
      have := List.inj_on_of_nodup_map hnd h1 hp h2
      rw [this]

theorem HT.WF.reserve {t : HT} (h : t.WF) (n : Nat) :
    (t.reserve n).WF ∧ ∀ e, (t.reserve n).get e = t.get e := by
  obtain ⟨w, hg⟩ := HT.new_wf n
  have hnd := nodup_flatten_keys h
  obtain ⟨h1, h2⟩ := foldl_insert_get t.buckets.flatten w hnd
  refine ⟨h1, ?_⟩
  intro e
  unfold HT.reserve
  rw [h2]
  cases hf : t.buckets.flatten.find? (fun p => p.1 = e) with
  | none =>
    simp only [hg]
    cases hge : t.get e with
    | none => rfl
    | some v =>
      rw [List.find?_eq_none] at hf
      have := hf _ ((h.get_flatten e v).1 hge)
      simp at this
  | some p =>
    have h1 := List.mem_of_find?_eq_some hf
    have h2 := List.find?_some hf
    simp only [decide_eq_true_eq] at h2
    have : (e, p.2) = p := by rw [← h2]
    simp only
    rw [(h.get_flatten e p.2).2 (by rw [this]; exact h1)]

/-! ## The 64-bit hash is injective -/

theorem key_inj {e e' : E32} (h : key e = key e') : e = e' := by
  unfold key at h
  have hb : ∀ i, (key e).getLsbD i = (key e').getLsbD i := by intro i; unfold key; rw [h]
  refine Prod.ext ?_ ?_
  · apply BitVec.eq_of_getLsbD_eq
    intro i hi
    have := hb (i + 32)
    simp only [key, BitVec.getLsbD_or, BitVec.getLsbD_shiftLeft, BitVec.getLsbD_setWidth] at this
    have h1 : e.2.getLsbD (i + 32) = false := BitVec.getLsbD_of_ge _ _ (by omega)
    have h2 : e'.2.getLsbD (i + 32) = false := BitVec.getLsbD_of_ge _ _ (by omega)
    have a1 : i + 32 < 64 := by omega
    have a2 : ¬ (i + 32 < 32) := by omega
    have a3 : i < 64 := by omega
    simpa [h1, h2, a1, a2, a3, hi] using this
  · apply BitVec.eq_of_getLsbD_eq
    intro i hi
    have := hb i
    simp only [key, BitVec.getLsbD_or, BitVec.getLsbD_shiftLeft, BitVec.getLsbD_setWidth] at this
    have a1 : i < 64 := by omega
    simpa [a1, hi] using this

theorem xorshift_inj {w s : Nat} (hs : 0 < s) {a b : BitVec w}
    (h : a ^^^ (a >>> s) = b ^^^ (b >>> s)) : a = b := by
  have key : ∀ d i, w ≤ i + d → a.getLsbD i = b.getLsbD i := by
    intro d
    induction d with
    | zero => intro i hi; rw [BitVec.getLsbD_of_ge _ _ (by omega), BitVec.getLsbD_of_ge _ _ (by omega)]
    | succ d ih =>
      intro i hi
      have h1 : (a ^^^ (a >>> s)).getLsbD i = (b ^^^ (b >>> s)).getLsbD i := by rw [h]
      simp only [BitVec.getLsbD_xor, BitVec.getLsbD_ushiftRight] at h1
      rw [ih (s + i) (by omega)] at h1
      cases ha : a.getLsbD i <;> cases hb : b.getLsbD i <;> simp_all
  apply BitVec.eq_of_getLsbD_eq
  intro i _
  exact key w i (by omega)

theorem mul_inj {a b c d : BitVec 64} (hd : c * d = 1#64) (h : a * c = b * c) : a = b := by
  have := congrArg (· * d) h
  simp only [BitVec.mul_assoc, hd] at this
  simpa using this

theorem shl_eq_mul (a : BitVec 64) (n : Nat) : a <<< n = a * BitVec.ofNat 64 (2 ^ n) := by
  rw [BitVec.shiftLeft_eq_mul_twoPow]
  congr 1
  apply BitVec.eq_of_toNat_eq
  simp

theorem not_add_shl (x : BitVec 64) : ~~~ x + x <<< 18 = x * 262143#64 - 1#64 := by
  rw [shl_eq_mul]
  have h7 : ~~~ x = -x - 1#64 := by
    rw [BitVec.neg_eq_not_add, BitVec.add_sub_cancel]
  have h8 : BitVec.ofNat 64 (2 ^ 18) = 262143#64 + 1#64 := by decide
  rw [h7, h8]
  have h1 : (1#64 : BitVec 64) = 1 := rfl
  rw [h1]
  ring

theorem mix_inj {a b : BitVec 64} (h : mix a = mix b) : a = b := by
  unfold mix at h
  have h1 := xorshift_inj (by decide) h
  have e6 : ∀ x : BitVec 64, x + x <<< 6 = x * 65#64 := by
    intro x
    rw [shl_eq_mul]
    have : x + x * BitVec.ofNat 64 (2 ^ 6) = x * 1#64 + x * BitVec.ofNat 64 (2 ^ 6) := by simp
    rw [this, ← BitVec.mul_add, show (1#64 + BitVec.ofNat 64 (2 ^ 6)) = 65#64 by decide]
  rw [e6, e6] at h1
  have h2 := mul_inj (c := 65#64) (d := 0xfc0fc0fc0fc0fc1#64) (by decide) h1
  have h3 := xorshift_inj (by decide) h2
  have e4 : ∀ x : BitVec 64, x + x <<< 2 + x <<< 4 = x * 21#64 := by
    intro x
    rw [shl_eq_mul, shl_eq_mul]
    have : x + x * BitVec.ofNat 64 (2 ^ 2) + x * BitVec.ofNat 64 (2 ^ 4)
      = x * 1#64 + x * BitVec.ofNat 64 (2 ^ 2) + x * BitVec.ofNat 64 (2 ^ 4) := by simp
    rw [this, ← BitVec.mul_add, ← BitVec.mul_add,
      show (1#64 + BitVec.ofNat 64 (2 ^ 2) + BitVec.ofNat 64 (2 ^ 4)) = 21#64 by decide]
  rw [e4, e4] at h3
  have h4 := mul_inj (c := 21#64) (d := 0xcf3cf3cf3cf3cf3d#64) (by decide) h3
  have h5 := xorshift_inj (by decide) h4
  rw [not_add_shl, not_add_shl] at h5
  have h6 : a * 262143#64 = b * 262143#64 := sub_left_injective h5
  exact mul_inj (c := 262143#64) (d := 0xffbfffeffffbffff#64) (by decide) h6

end EHT
end DK2
