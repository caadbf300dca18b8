import Verif.UnionProofs
/-!
# `k2_tree_union_support`: capacity, stages, whole run
-/

namespace DK2
namespace US
open Bits

/-! ### capacity of the result vectors -/

/-- `b + b² + … + b^j`. -/
def geo (b : Nat) : Nat → Nat
  | 0 => 0
  | j + 1 => geo b j + b ^ (j + 1)

theorem geo_lt {b : Nat} (hb : 2 ≤ b) (j : Nat) : geo b j < b ^ (j + 1) := by
  induction j with
  | zero => simp [geo]; omega
  | succ j ih =>
    rw [geo, pow_succ b (j + 1)]
    nlinarith [Nat.pow_pos (n := j + 1) (show 0 < b by omega)]

/-- The size estimate of the program is the sum, cut to 32 bits. -/
theorem bitsLoop_mod (b j : Nat) : bitsLoop b j = (b ^ j % 2 ^ 32, geo b j % 2 ^ 32) := by
  induction j with
  | zero => rfl
  | succ j ih =>
    unfold bitsLoop
    simp only [ih, geo, Nat.mod_mul_mod, pow_succ, Nat.add_mod_mod, Nat.mod_add_mod]

theorem geo_exact {b : Nat} (hb : 2 ≤ b) {j : Nat} (h : b ^ (j + 1) ≤ 2 ^ 32) : geo b j % 2 ^ 32 = geo b j :=
  Nat.mod_eq_of_lt (lt_of_lt_of_le (geo_lt hb j) h)

theorem nodes_len (b : Nat) (U : List Nat → Bool) (d : Nat) : (nodes b U d).length ≤ b ^ d := by
  induction d with
  | zero => simp [nodes]
  | succ d ih =>
    have : ∀ l : List (List Nat), (l.flatMap (kids b U)).length ≤ b * l.length := by
      intro l
      induction l with
      | nil => simp
      | cons p l ihl =>
        rw [List.flatMap_cons, List.length_append, List.length_cons, Nat.mul_add, Nat.mul_one]
        have : (kids b U p).length ≤ b := by
          unfold kids
          refine le_trans (List.length_filter_le _ _) (by simp)
        omega
    rw [nodes_succ, pow_succ, Nat.mul_comm]
    exact le_trans (this _) (Nat.mul_le_mul_left b ih)

theorem cnt_geo (b : Nat) (U : List Nat → Bool) (d : Nat) : b * cnt b U d ≤ geo b d := by
  induction d with
  | zero => simp [cnt, geo]
  | succ d ih =>
    rw [cnt, geo, Nat.mul_add, pow_succ, Nat.mul_comm (b ^ d)]
    have := Nat.mul_le_mul_left b (nodes_len b U d)
    omega

theorem geo_mono (b : Nat) {i j : Nat} (h : i ≤ j) : geo b i ≤ geo b j := by
  obtain ⟨l, rfl⟩ : ∃ l, j = i + l := ⟨j - i, by omega⟩
  clear h
  induction l with
  | zero => exact le_refl _
  | succ l ih => exact le_trans ih (Nat.le_add_right _ _)

theorem pow_le_geo (b j : Nat) : b ^ (j + 1) ≤ geo b (j + 1) := by rw [geo]; omega

theorem un_len {b : Nat} {A B : List Nat → Bool} (hA : Closed A) (hB : Closed B) (hA0 : A [] = true)
    (hB0 : B [] = true) (d : Nat) :
    (nodes b (un A B) d).length ≤ (nodes b A d).length + (nodes b B d).length := by
  have hsA : ∀ q, A q = true → un A B q = true := by intro q hq; simp [un, hq]
  have hsB : ∀ q, B q = true → un A B q = true := by intro q hq; simp [un, hq]
  rw [← nodes_filter hsA hA hA0, ← nodes_filter hsB hB hB0]
  have : ∀ l : List (List Nat), (∀ q ∈ l, un A B q = true) →
      l.length ≤ (l.filter A).length + (l.filter B).length := by
    intro l
    induction l with
    | nil => simp
    | cons p l ih =>
      intro hl
      have h1 := ih (fun q hq => hl q (List.mem_cons_of_mem _ hq))
      have h2 := hl p (by simp)
      simp only [un, Bool.or_eq_true] at h2
      simp only [List.filter_cons, List.length_cons]
      rcases h2 with h2 | h2
      · rw [if_pos h2, List.length_cons]; split <;> simp <;> omega
      · rw [if_pos h2, List.length_cons]; split <;> simp <;> omega
  exact this _ (fun q hq => (nodes_mem (by simp [un, hA0]) hq).1)

theorem un_cnt {b : Nat} {A B : List Nat → Bool} (hA : Closed A) (hB : Closed B) (hA0 : A [] = true)
    (hB0 : B [] = true) (d : Nat) : cnt b (un A B) d ≤ cnt b A d + cnt b B d := by
  induction d with
  | zero => simp [cnt]
  | succ d ih => have := un_len (b := b) hA hB hA0 hB0 d; simp only [cnt]; omega

theorem tBits_length (b : Nat) (U : List Nat → Bool) (h : Nat) : (tBits b U h).length = b * cnt b U (h - 1) :=
  upto_length b U (h - 1)

theorem lBits_length (b : Nat) (U : List Nat → Bool) (h : Nat) :
    (lBits b U h).length = b * (nodes b U (h - 1)).length := groups_length b U _

theorem cap_ok {b h : Nat} {A B : List Nat → Bool} {t tB : BT} (hA : Enc b h A t)
    (hB : Enc b h B tB) (hT : (tBits b (un A B) h).length ≤ geo b h % 2 ^ 32)
    (hL : (lBits b (un A B) h).length ≤ geo b (h + 1) % 2 ^ 32) :
    (tBits b (un A B) h).length ≤ capT b h t tB ∧ (lBits b (un A B) h).length ≤ capL b h t tB := by
  constructor
  · refine le_min (by rw [bitsLoop_mod]; exact hT) ?_
    rw [hA.T, hB.T, tBits_length, tBits_length, tBits_length, ← Nat.mul_add]
    exact Nat.mul_le_mul_left b (un_cnt hA.closed hB.closed hA.root hB.root _)
  · refine le_min (by rw [bitsLoop_mod]; exact hL) ?_
    rw [hA.L, hB.L, lBits_length, lBits_length, lBits_length, ← Nat.mul_add]
    exact Nat.mul_le_mul_left b (un_len hA.closed hB.closed hA.root hB.root _)

theorem mono_len {b : Nat} {A U : List Nat → Bool} (hs : ∀ p, A p = true → U p = true) (hc : Closed A)
    (h0 : A [] = true) (d : Nat) : (nodes b A d).length ≤ (nodes b U d).length := by
  rw [← nodes_filter hs hc h0]; exact List.length_filter_le _ _

theorem mono_cnt {b : Nat} {A U : List Nat → Bool} (hs : ∀ p, A p = true → U p = true) (hc : Closed A)
    (h0 : A [] = true) (d : Nat) : cnt b A d ≤ cnt b U d := by
  induction d with
  | zero => simp [cnt]
  | succ d ih => have := mono_len (b := b) hs hc h0 d; simp only [cnt]; omega

theorem cnt_pos {b : Nat} {U : List Nat → Bool} {h : Nat} (hh : 1 ≤ h) : 0 < cnt b U h := by
  obtain ⟨j, rfl⟩ : ∃ j, h = j + 1 := ⟨h - 1, by omega⟩
  clear hh
  induction j with
  | zero => simp [cnt, nodes]
  | succ j ih => rw [cnt]; omega

/-! ### one stage -/

theorem Mid.front {b h : Nat} {A B : List Nat → Bool} {t : BT} {cT cL : Nat} {s : US} {g : Nat}
    (hm : Mid b h A B t cT cL s g) (hg : 0 < g) (hq : s.Q ≠ []) :
    ∃ q, s.front = .ok q ∧ q ≠ (0, true, true) := by
  obtain ⟨d, x, y, ha, hy, hgg⟩ := hm
  cases y with
  | nil =>
    exfalso; apply hq
    rw [ha.q, wQ, if_neg (by have := hy rfl; omega)]; rfl
  | cons p y =>
    refine ⟨tag A B d p, ?_, ?_⟩
    · unfold US.front; rw [ha.q]; rfl
    · intro h1
      have h2 : d = 0 := congrArg Prod.fst h1
      subst h2
      have := ha.split
      simp only [nodes] at this
      have hl := congrArg List.length this
      simp only [List.length_cons, List.length_nil, List.length_append] at hl
      simp only [cnt] at hgg
      omega

/-- The state a stage starts from. -/
structure Start (s : US) : Prop where
  q : s.Q = [(0, true, true)]
  pA : s.pA = 0
  pB : s.pB = 0
  idxL : s.idxL = 0
  idxT : s.idxT = 0
  ne : s.ne = 0

theorem Start.mid {b h : Nat} (hh : 1 ≤ h) {A B : List Nat → Bool} {t tB : BT} (hA : Enc b h A t)
    (hB : Enc b h B tB) {s : US} (hs : Start s) (ht : s.tmp = t) :
    ∃ q, s.front = .ok q ∧
    Mid b h A B t (capT b h t tB) (capL b h t tB) (begin' b h tB q s) 0 ∧ Keep s (begin' b h tB q s) ∧
      (begin' b h tB q s).times = s.times := by
  refine ⟨(0, true, true), by unfold US.front; rw [hs.q], ?_, ?_, ?_⟩
  · unfold begin'
    rw [if_pos rfl]
    have hT : wT b h A B 0 [] = [] := by
      unfold wT
      split
      · simp [upto]
      · rw [show h - 1 = 0 by omega]; simp [upto]
    have hL : wL b h A B 0 [] = [] := by unfold wL; split <;> simp
    refine ⟨0, [], [[]], ⟨ht, rfl, hh, ?_, ?_, ?_, ?_, ?_, ?_, ?_, ?_⟩, by simp, by simp [cnt]⟩
    · show s.Q = _
      rw [hs.q]; simp [tag, hA.root, hB.root, wQ]
    · show s.pA = _
      simp [hs.pA, cnt]
    · show s.pB = _
      simp [hs.pB, cnt]
    · rw [hT]; simp only [initC, ht]; exact Padded.init _
    · rw [hL]; simp only [initC, ht]; exact Padded.init _
    · rw [hT]; exact hs.idxT
    · rw [hL]; exact hs.idxL
    · rw [hL]; exact hs.ne
  · unfold begin'; rw [if_pos rfl]; exact ⟨rfl, rfl, rfl, rfl⟩
  · unfold begin'; rw [if_pos rfl]; rfl

/-- `result()` at the end of a stage. -/
theorem result_spec {k h n : Nat} (hk : 2 ≤ k) (hh : 1 ≤ h) (hn : n ≤ k ^ h) {H : Nat → Nat} (hH : H n = h)
    {F E : List Edge} (hFE : ∀ e ∈ F ++ E, InRange n e) {cT cL : Nat}
    {s : US} {x : List (List Nat)}
    (ha : At (k * k) h (below k h F) (below k h E) (BT.encode k h n F) cT cL s (h - 1) x [])
    (hx : nodes (k * k) (un (below k h F) (below k h E)) (h - 1) = x) :
    ∃ s', result H s = .ok s' ∧ s'.tmp = BT.encode k h n (F ++ E) ∧ s'.ne = 0 ∧ s'.times = s.times ∧
      Keep s s' := by
  have hun : un (below k h F) (below k h E) = below k h (F ++ E) := by
    funext p; rw [below_append]; rfl
  have e1 : wT (k * k) h (below k h F) (below k h E) (h - 1) x = tBits (k * k) (below k h (F ++ E)) h := by
    unfold wT; rw [if_neg (by omega), hun]; rfl
  have e2 : wL (k * k) h (below k h F) (below k h E) (h - 1) x = lBits (k * k) (below k h (F ++ E)) h := by
    unfold wL; rw [if_neg (by omega), ← hx, hun]; rfl
  have hct := ha.ct
  have hcl := ha.cl
  have hiT := ha.idxT
  have hiL := ha.idxL
  have hne := ha.ne
  rw [e1] at hct hiT
  rw [e2] at hcl hiL hne
  have hr : result H s = .ok { s with
      tmp := { s.tmp with T := s.Ct.take s.idxT, L := s.Cl.take s.idxL, h := H s.tmp.nv, ne := s.ne }
      Ct := s.Ct.take s.idxT
      Cl := s.Cl.take s.idxL
      ne := 0 } := by
    unfold result
    rw [if_neg (by rw [hct.len, hiT]; have := hct.2; omega), if_neg (by rw [hcl.len, hiL]; have := hcl.2; omega)]
  refine ⟨_, hr, ?_, rfl, rfl, ⟨rfl, rfl, rfl, rfl⟩⟩
  · simp only [ha.tmp, hiT, hiL, hct.take, hcl.take, hne]
    simp only [BT.encode, hH, lBits_count (show 0 < k by omega) hh hn hFE]

/-! ### the whole run -/

/-- The levels are scanned up to the next tree. -/
theorem scan_spec (ks : List (Option BT)) : ∀ (f i : Nat), i ≤ scan ks f i ∧ scan ks f i ≤ i + f ∧
    (∀ l, i ≤ l → l < scan ks f i → ∀ t, ks[l]? ≠ some (some t)) ∧
    (scan ks f i < i + f → ∃ t, ks[scan ks f i]? = some (some t)) := by
  intro f
  induction f with
  | zero => intro i; simp only [scan]; exact ⟨le_refl _, by omega, fun l h1 h2 => by omega, fun h => by omega⟩
  | succ f ih =>
    intro i
    unfold scan
    split
    · rename_i t ht
      exact ⟨le_refl _, by omega, fun l h1 h2 => by omega, fun _ => ⟨t, ht⟩⟩
    · rename_i hno
      obtain ⟨h1, h2, h3, h4⟩ := ih (i + 1)
      refine ⟨by omega, by omega, ?_, fun h => h4 (by omega)⟩
      intro l hl1 hl2 t ht
      by_cases hli : l = i
      · subst hli; exact hno t ht
      · exact h3 l (by omega) hl2 t ht

section
variable (k h n : Nat) (F : List Edge) (es : List (Option (List Edge)))

/-- The edges merged into `tmp` once the levels below `i` are done. -/
def acc : Nat → List Edge
  | 0 => F
  | i + 1 =>
    match es[i]? with
    | some (some E) => acc i ++ E
    | _ => acc i

/-- The groups processed for the levels below `i`. -/
def work : Nat → Nat
  | 0 => 0
  | i + 1 =>
    match es[i]? with
    | some (some _) => work i + cnt (k * k) (below k h (acc F es (i + 1))) h
    | _ => work i

/-- The levels once those below `i` have been merged into `tmp`. -/
def rest (i : Nat) : List (Option (List Edge)) := List.replicate i none ++ es.drop i

/-- The levels as the program stores them. -/
def stored (ls : List (Option (List Edge))) : List (Option BT) := ls.map (Option.map (BT.encode k h n))

/-- What the union may be called with: a non-empty list of new edges, non-empty trees in the levels, a target
level. -/
structure Base (m : Nat) : Prop where
  hk : 2 ≤ k
  hh : 1 ≤ h
  hn : n ≤ k ^ h
  hF : F ≠ []
  hFr : ∀ e ∈ F, InRange n e
  hE : ∀ E, some E ∈ es → E ≠ [] ∧ ∀ e ∈ E, InRange n e
  hm : m < es.length

/-- The size of the result is one that the 32-bit estimate does not cut off. -/
structure Input (m : Nat) : Prop extends Base k h n F es m where
  fitT : (tBits (k * k) (below k h (acc F es (m + 1))) h).length ≤ geo (k * k) h % 2 ^ 32
  fitL : (lBits (k * k) (below k h (acc F es (m + 1))) h).length ≤ geo (k * k) (h + 1) % 2 ^ 32

/-- A union in progress: `D` groups are done. -/
structure Pend (m : Nat) (ks : List (Option BT)) (s : US) (D : Nat) : Prop where
  i_le : s.ki ≤ m
  mI : s.maxI = m
  fin : s.finish = false
  ks_eq : ks = stored k h n (rest es s.ki)
  stage : ∃ E g, es[s.ki]? = some (some E) ∧ D = work k h F es s.ki + g ∧
    ((Start s ∧ s.tmp = BT.encode k h n (acc F es s.ki) ∧ g = 0) ∨
     (Mid (k * k) h (below k h (acc F es s.ki)) (below k h E) (BT.encode k h n (acc F es s.ki))
        (capT (k * k) h (BT.encode k h n (acc F es s.ki)) (BT.encode k h n E))
        (capL (k * k) h (BT.encode k h n (acc F es s.ki)) (BT.encode k h n E)) s g ∧ 0 < g ∧ s.Q ≠ []))

/-- The levels after the union. -/
def merged (m : Nat) : List (Option (List Edge)) :=
  List.replicate m none ++ some (acc F es (m + 1)) :: es.drop (m + 1)

end

section
variable {k h n : Nat} {F : List Edge} {es : List (Option (List Edge))} {m : Nat}

theorem acc_succ_some {i : Nat} {E : List Edge} (he : es[i]? = some (some E)) :
    acc F es (i + 1) = acc F es i ++ E := by
  simp [acc, he]

theorem work_succ_some {i : Nat} {E : List Edge} (he : es[i]? = some (some E)) :
    work k h F es (i + 1) = work k h F es i + cnt (k * k) (below k h (acc F es (i + 1))) h := by
  rw [work, he]

theorem skip {i : Nat} : ∀ (f : Nat), (∀ l, i ≤ l → l < i + f → ∀ E, es[l]? ≠ some (some E)) →
    i + f ≤ es.length →
    rest es i = rest es (i + f) ∧ acc F es i = acc F es (i + f) ∧ work k h F es i = work k h F es (i + f) := by
  intro f
  induction f with
  | zero => intro _ _; exact ⟨rfl, rfl, rfl⟩
  | succ f ih =>
    intro hno hl
    obtain ⟨h1, h2, h3⟩ := ih (fun l a b => hno l a (by omega)) (by omega)
    have hn' := hno (i + f) (by omega) (by omega)
    have hsome : es[i + f]? = some none := by
      have : i + f < es.length := by omega
      rw [List.getElem?_eq_getElem this]
      cases he : es[i + f] with
      | none => rfl
      | some E => exact absurd (by rw [List.getElem?_eq_getElem this, he]) (hn' E)
    refine ⟨?_, ?_, ?_⟩
    · rw [h1]
      unfold rest
      have hlt : i + f < es.length := by omega
      rw [List.drop_eq_getElem_cons hlt, show i + (f + 1) = i + f + 1 by omega, List.replicate_succ', List.append_assoc]
      congr 1
      rw [List.getElem?_eq_getElem hlt] at hsome
      rw [Option.some.inj hsome]; rfl
    · rw [h2, show i + (f + 1) = i + f + 1 by omega, acc, hsome]
    · rw [h3, show i + (f + 1) = i + f + 1 by omega, work, hsome]

theorem acc_sub {i j : Nat} (hij : i ≤ j) : ∀ e ∈ acc F es i, e ∈ acc F es j := by
  obtain ⟨f, rfl⟩ : ∃ f, j = i + f := ⟨j - i, by omega⟩
  clear hij
  induction f with
  | zero => exact fun e h => h
  | succ f ih =>
    intro e he
    have := ih e he
    rw [← Nat.add_assoc, acc]
    split
    · exact List.mem_append_left _ this
    · exact this

theorem Base.acc_ne (hi : Base k h n F es m) (i : Nat) : acc F es i ≠ [] := by
  intro h0
  obtain ⟨e, he⟩ := List.exists_mem_of_ne_nil F hi.hF
  have := acc_sub (F := F) (es := es) (Nat.zero_le i) e he
  rw [h0] at this; cases this

theorem Base.acc_range (hi : Base k h n F es m) (i : Nat) : ∀ e ∈ acc F es i, InRange n e := by
  induction i with
  | zero => exact hi.hFr
  | succ i ih =>
    rw [acc]
    split
    · rename_i E hE
      intro e he
      rcases List.mem_append.1 he with h1 | h1
      · exact ih e h1
      · exact (hi.hE E (List.mem_of_getElem? hE)).2 e h1
    · exact ih

theorem below_mono {E E' : List Edge} (hs : ∀ e ∈ E, e ∈ E') (p : List Nat) (hp : below k h E p = true) :
    below k h E' p = true := by
  rw [below_iff] at hp ⊢
  obtain ⟨e, h1, h2⟩ := hp
  exact ⟨e, hs e h1, h2⟩

theorem Base.enc (_ : Base k h n F es m) {E : List Edge} (hE : E ≠ []) :
    Enc (k * k) h (below k h E) (BT.encode k h n E) :=
  ⟨rfl, rfl, rfl, below_closed k h E, below_nil hE⟩

theorem Input.caps (hi : Input k h n F es m) {i : Nat} (him : i ≤ m) {E : List Edge}
    (hE : es[i]? = some (some E)) :
    (tBits (k * k) (un (below k h (acc F es i)) (below k h E)) h).length ≤
      capT (k * k) h (BT.encode k h n (acc F es i)) (BT.encode k h n E) ∧
    (lBits (k * k) (un (below k h (acc F es i)) (below k h E)) h).length ≤
      capL (k * k) h (BT.encode k h n (acc F es i)) (BT.encode k h n E) := by
  have hE' := hi.hE E (List.mem_of_getElem? hE)
  have hun : un (below k h (acc F es i)) (below k h E) = below k h (acc F es (i + 1)) := by
    funext p; rw [acc_succ_some hE, below_append]; rfl
  have hs : ∀ p, below k h (acc F es (i + 1)) p = true → below k h (acc F es (m + 1)) p = true :=
    below_mono (acc_sub (by omega))
  have h0 := below_nil (k := k) (h := h) (hi.acc_ne (i + 1))
  refine cap_ok (hi.enc (hi.acc_ne i)) (hi.enc hE'.1) ?_ ?_
  · rw [hun]
    refine le_trans ?_ hi.fitT
    rw [tBits_length, tBits_length]
    exact Nat.mul_le_mul_left _ (mono_cnt hs (below_closed _ _ _) h0 _)
  · rw [hun]
    refine le_trans ?_ hi.fitL
    rw [lBits_length, lBits_length]
    exact Nat.mul_le_mul_left _ (mono_len hs (below_closed _ _ _) h0 _)

theorem stored_get (ls : List (Option (List Edge))) (i : Nat) :
    (stored k h n ls)[i]? = (ls[i]?).map (Option.map (BT.encode k h n)) := by simp [stored]

theorem rest_get {i j : Nat} (hij : i ≤ j) : (rest es i)[j]? = es[j]? := by
  unfold rest
  rw [List.getElem?_append_right (by simpa using hij)]
  simp only [List.length_replicate, List.getElem?_drop]
  congr 1; omega

theorem rest_length {i : Nat} (hi : i ≤ es.length) : (rest es i).length = es.length := by
  simp [rest]; omega

theorem rest_set {i : Nat} (hi : i < es.length) : (rest es i).set i none = rest es (i + 1) := by
  unfold rest
  rw [List.set_append_right _ _ (by simp), List.length_replicate, Nat.sub_self, List.drop_eq_getElem_cons hi,
    List.set_cons_zero, List.replicate_succ', List.append_assoc]
  rfl

theorem work_mono {i j : Nat} (hij : i ≤ j) : work k h F es i ≤ work k h F es j := by
  obtain ⟨f, rfl⟩ : ∃ f, j = i + f := ⟨j - i, by omega⟩
  clear hij
  induction f with
  | zero => exact le_refl _
  | succ f ih =>
    refine le_trans ih ?_
    rw [← Nat.add_assoc, work]
    split
    · exact Nat.le_add_right _ _
    · exact le_refl _

theorem merged_eq : (rest es (m + 1)).set m (some (acc F es (m + 1))) = merged F es m := by
  unfold rest merged
  rw [List.replicate_succ', List.append_assoc, List.set_append_right _ _ (by simp), List.length_replicate,
    Nat.sub_self]
  rfl

theorem stored_set (ls : List (Option (List Edge))) (i : Nat) (o : Option (List Edge)) :
    (stored k h n ls).set i (o.map (BT.encode k h n)) = stored k h n (ls.set i o) := by
  simp [stored, List.map_set]

/-- What happens when a stage is complete. -/
theorem next_spec {H : Nat → Nat} (hi : Base k h n F es m) (hH : H n = h) {s : US} (hki : s.ki ≤ m)
    (hmI : s.maxI = m) {E : List Edge} (hE : es[s.ki]? = some (some E)) {cT cL : Nat} {x : List (List Nat)}
    (hf : s.finish = false)
    (ha : At (k * k) h (below k h (acc F es s.ki)) (below k h E) (BT.encode k h n (acc F es s.ki)) cT cL s
      (h - 1) x [])
    (hx : nodes (k * k) (un (below k h (acc F es s.ki)) (below k h E)) (h - 1) = x) :
    ∃ ks' s' r, next H (stored k h n (rest es s.ki)) s = .ok (ks', s', r) ∧ s'.iter = s.iter ∧
      ((r = false ∧ s'.finish = true ∧ ks' = stored k h n (merged F es m) ∧
          work k h F es (m + 1) = work k h F es (s.ki + 1) ∧ acc F es (m + 1) = acc F es (s.ki + 1)) ∨
       (Pend k h n F es m ks' s' (work k h F es (s.ki + 1)) ∧ s.ki < s'.ki ∧
          work k h F es (s.ki + 1) < work k h F es (m + 1) ∧
          ((r = false ∧ s.times = s.iter ∧ s'.times = 0) ∨ (r = true ∧ s.times ≠ s.iter ∧ s'.times = s.times)))) := by
  have hEne := hi.hE E (List.mem_of_getElem? hE)
  have hlt : s.ki < es.length := by have := hi.hm; omega
  have hFE : ∀ e ∈ acc F es s.ki ++ E, InRange n e := by
    rw [← acc_succ_some hE]; exact hi.acc_range _
  obtain ⟨s3, r1, r2, r3, r4, r5⟩ := result_spec hi.hk hi.hh hi.hn hH hFE ha hx
  rw [← acc_succ_some hE] at r2
  have hw : wr (stored k h n (rest es s.ki)) s.ki none = .ok (stored k h n (rest es (s.ki + 1))) := by
    rw [wr_of (by rw [stored, List.length_map, rest_length (by omega)]; exact hlt)]
    congr 1
    rw [← rest_set hlt, ← stored_set]; rfl
  have hks3 : s3.ki = s.ki := r5.1
  have hm3 : s3.maxI = m := by rw [r5.2.2.2, hmI]
  unfold next
  simp only [hw, r1, Res.ok_bind, hks3, hm3]
  obtain ⟨c1, c2, c3, c4⟩ := scan_spec (stored k h n (rest es (s.ki + 1))) (m + 1 - s.ki) s.ki
  generalize hj : scan (stored k h n (rest es (s.ki + 1))) (m + 1 - s.ki) s.ki = j at c1 c2 c3 c4
  have hge : s.ki + 1 ≤ j := by
    by_contra hlt'
    have : j = s.ki := by omega
    obtain ⟨t, ht⟩ := c4 (by omega)
    rw [this, stored_get] at ht
    have hnone : (rest es (s.ki + 1))[s.ki]? = some none := by
      unfold rest
      rw [List.getElem?_append_left (by simp)]
      simp
    rw [hnone] at ht
    cases ht
  have hno : ∀ l, s.ki + 1 ≤ l → l < s.ki + 1 + (j - (s.ki + 1)) → ∀ E, es[l]? ≠ some (some E) := by
    intro l h1 h2 E' hE'
    refine c3 l (by omega) (by omega) (BT.encode k h n E') ?_
    rw [stored_get, rest_get h1, hE']; rfl
  obtain ⟨k1, k2, k3⟩ := skip (k := k) (h := h) (F := F) (j - (s.ki + 1)) hno (by have := hi.hm; omega)
  rw [show s.ki + 1 + (j - (s.ki + 1)) = j by omega] at k1 k2 k3
  by_cases hjm : m < j
  · have hjm' : j = m + 1 := by omega
    rw [if_pos hjm]
    have hw2 : wr (stored k h n (rest es (s.ki + 1))) m (some s3.tmp) = .ok (stored k h n (merged F es m)) := by
      rw [wr_of (by rw [stored, List.length_map, rest_length (by omega)]; exact hi.hm)]
      congr 1
      rw [k1, hjm', ← merged_eq, ← stored_set, r2, k2, hjm']; rfl
    simp only [hw2, Res.ok_bind]
    refine ⟨_, _, _, rfl, r5.2.1, Or.inl ⟨rfl, rfl, rfl, ?_, ?_⟩⟩
    · rw [k3, hjm']
    · rw [k2, hjm']
  · rw [if_neg hjm]
    obtain ⟨t, ht⟩ := c4 (by omega)
    rw [stored_get, rest_get hge] at ht
    obtain ⟨E', hE'⟩ : ∃ E', es[j]? = some (some E') := by
      cases h1 : es[j]? with
      | none => rw [h1] at ht; cases ht
      | some o =>
        cases o with
        | none => rw [h1] at ht; cases ht
        | some E' => exact ⟨E', rfl⟩
    have hp : ∀ tm, Pend k h n F es m (stored k h n (rest es (s.ki + 1)))
        { initl { s3 with ki := j, maxI := m } with times := tm } (work k h F es (s.ki + 1)) := by
      intro tm
      refine ⟨by simp only [initl]; omega, rfl, by show s3.finish = false; rw [r5.2.2.1, hf], ?_, E', 0, hE', ?_,
        Or.inl ⟨⟨rfl, rfl, rfl, rfl, rfl, r3⟩, ?_, rfl⟩⟩
      · rw [k1]; rfl
      · rw [k3]; rfl
      · show s3.tmp = BT.encode k h n (acc F es j)
        rw [r2, k2]
    have hs : work k h F es (s.ki + 1) < work k h F es (m + 1) := by
      rw [k3]
      refine lt_of_lt_of_le ?_ (work_mono (show j + 1 ≤ m + 1 by omega))
      rw [work_succ_some hE']
      have := cnt_pos (b := k * k) (U := below k h (acc F es (j + 1))) hi.hh
      omega
    by_cases ht : s3.times = s3.iter
    · rw [if_pos ht]
      refine ⟨_, _, _, rfl, r5.2.1, Or.inr ⟨hp 0, by simp only [initl]; omega, hs,
        Or.inl ⟨rfl, by rw [← r4, ht, r5.2.1], rfl⟩⟩⟩
    · rw [if_neg ht]
      refine ⟨_, _, _, rfl, r5.2.1, Or.inr ⟨hp s3.times, by simp only [initl]; omega, hs,
        Or.inr ⟨rfl, by rw [← r4, ← r5.2.1]; exact ht, r4⟩⟩⟩

/-- One call of `unionOperation` on a union in progress. -/
theorem Pend.unionOp {H : Nat → Nat} (hi : Input k h n F es m) (hH : H n = h) : ∀ (f : Nat)
    {ks : List (Option BT)} {s : US} {D : Nat}, Pend k h n F es m ks s D → s.times < s.iter → m < s.ki + f →
    ∃ ks' s', US.unionOp (k * k) H f ks s = .ok (ks', s') ∧ s'.iter = s.iter ∧
      ((s'.finish = true ∧ ks' = stored k h n (merged F es m) ∧
          work k h F es (m + 1) ≤ D + (s.iter - s.times)) ∨
       (Pend k h n F es m ks' s' (D + (s.iter - s.times)) ∧ s'.times = 0 ∧
          D + (s.iter - s.times) < work k h F es (m + 1))) := by
  intro f
  induction f with
  | zero => intro ks s D hp _ hm; have := hp.i_le; omega
  | succ f ih =>
    intro ks s D hp ht hm
    obtain ⟨E, g, hE, hD, hst⟩ := hp.stage
    have hEne := hi.hE E (List.mem_of_getElem? hE)
    have hA := hi.enc (hi.acc_ne s.ki)
    have hB := hi.enc hEne.1
    obtain ⟨hcT, hcL⟩ := hi.caps hp.i_le hE
    have hun : un (below k h (acc F es s.ki)) (below k h E) = below k h (acc F es (s.ki + 1)) := by
      funext p; rw [acc_succ_some hE, below_append]; rfl
    have hrd : rd ks s.ki = .ok (some (BT.encode k h n E)) := by
      apply rd_of
      rw [hp.ks_eq, stored_get, rest_get (le_refl _), hE]; rfl
    obtain ⟨q, hq, s1, hs1, hmid, hkeep, htimes⟩ : ∃ q, s.front = .ok q ∧ ∃ s1,
        begin' (k * k) h (BT.encode k h n E) q s = s1 ∧
        Mid (k * k) h (below k h (acc F es s.ki)) (below k h E) (BT.encode k h n (acc F es s.ki))
        (capT (k * k) h (BT.encode k h n (acc F es s.ki)) (BT.encode k h n E))
        (capL (k * k) h (BT.encode k h n (acc F es s.ki)) (BT.encode k h n E)) s1 g ∧ Keep s s1 ∧
        s1.times = s.times := by
      rcases hst with ⟨h1, h2, h3⟩ | ⟨h1, h2, h3⟩
      · obtain ⟨q, q1, q2, q3, q4⟩ := h1.mid hi.hh hA hB h2
        rw [h3]
        exact ⟨q, q1, _, rfl, q2, q3, q4⟩
      · obtain ⟨q, q1, q2⟩ := h1.front h2 h3
        refine ⟨q, q1, s, ?_, h1, Keep.refl s, rfl⟩
        unfold begin'; rw [if_neg q2]
    have hmaxh : max s.tmp.h (BT.encode k h n E).h = h := by
      have : s.tmp = BT.encode k h n (acc F es s.ki) := by
        rcases hst with ⟨_, h2, _⟩ | ⟨⟨_, _, _, h1, _⟩, _, _⟩
        · exact h2
        · exact h1.tmp
      rw [this]; simp [BT.encode]
    obtain ⟨s2, g2, d1, d2, d3, d4, d5⟩ := drain_spec hA hB hcT hcL (s.iter - s.times) hmid
    have hk2 := hkeep.trans d3
    unfold US.unionOp
    rw [hp.fin, if_neg Bool.false_ne_true]
    simp only [hrd, use, Res.ok_bind, hmaxh, hq, hs1, d1]
    rw [hun] at d5
    have hwk := work_succ_some (k := k) (h := h) (F := F) hE
    rcases d5 with ⟨e1, e2, e3⟩ | ⟨e1, e2, e3⟩
    · -- the stage is complete
      rw [if_pos e1]
      obtain ⟨x, hx1, hx2⟩ : ∃ x, At (k * k) h (below k h (acc F es s.ki)) (below k h E)
          (BT.encode k h n (acc F es s.ki))
          (capT (k * k) h (BT.encode k h n (acc F es s.ki)) (BT.encode k h n E))
          (capL (k * k) h (BT.encode k h n (acc F es s.ki)) (BT.encode k h n E)) s2 (h - 1) x [] ∧
          nodes (k * k) (un (below k h (acc F es s.ki)) (below k h E)) (h - 1) = x := by
        rcases d2.step hA hB hcT hcL with ⟨_, _, x, a1, a2⟩ | ⟨_, q', qs, _, a1, _⟩
        · exact ⟨x, a1, a2⟩
        · rw [e1] at a1; cases a1
      rw [← hk2.1] at hx1 hx2 hE
      obtain ⟨ks', s', r, n1, n2, n3⟩ := next_spec hi.toBase hH (by rw [hk2.1]; exact hp.i_le)
        (by rw [hk2.2.2.2, hp.mI]) hE (by rw [hk2.2.2.1, hp.fin]) hx1 hx2
      rw [hk2.1, ← hp.ks_eq] at n1
      simp only [n1, Res.ok_bind]
      rw [hk2.1] at n3
      rcases n3 with ⟨m1, m2, m3, m4, _⟩ | ⟨m1, m2, m3, ⟨m4, m5, m6⟩ | ⟨m4, m5, m6⟩⟩
      · rw [m1, if_neg Bool.false_ne_true]
        refine ⟨_, _, rfl, by rw [n2, hk2.2.1], Or.inl ⟨m2, m3, ?_⟩⟩
        rw [m4, hwk]; omega
      · rw [m4, if_neg Bool.false_ne_true]
        rw [hk2.2.1] at m5
        have : work k h F es (s.ki + 1) = D + (s.iter - s.times) := by rw [hwk]; omega
        rw [this] at m1 m3
        exact ⟨_, _, rfl, by rw [n2, hk2.2.1], Or.inr ⟨m1, m6, m3⟩⟩
      · rw [m4, if_pos rfl]
        rw [hk2.2.1] at m5 n2
        obtain ⟨ks'', s'', i1, i2, i3⟩ := ih m1 (by omega) (by omega)
        have : work k h F es (s.ki + 1) + (s'.iter - s'.times) = D + (s.iter - s.times) := by
          rw [hwk, n2, m6]; omega
        rw [this] at i3
        exact ⟨ks'', s'', i1, by rw [i2, n2], i3⟩
    · -- the budget is used up
      rw [if_neg e1]
      refine ⟨_, _, rfl, hk2.2.1, Or.inr ⟨⟨?_, ?_, rfl, ?_, E, g2, ?_, ?_, Or.inr ⟨?_, by omega, e1⟩⟩, rfl, ?_⟩⟩
      · show s2.ki ≤ m; rw [hk2.1]; exact hp.i_le
      · show s2.maxI = m; rw [hk2.2.2.2, hp.mI]
      · show ks = stored k h n (rest es s2.ki); rw [hk2.1]; exact hp.ks_eq
      · show es[s2.ki]? = _; rw [hk2.1]; exact hE
      · show _ = work k h F es s2.ki + g2; rw [hk2.1]; omega
      · show Mid (k * k) h (below k h (acc F es s2.ki)) _ _ _ _ _ _
        simp only [hk2.1]
        obtain ⟨d, x, y, ha, hy, hg⟩ := d2
        exact ⟨d, x, y, ⟨ha.tmp, ha.split, ha.lt, ha.q, ha.pA, ha.pB, ha.ct, ha.cl, ha.idxT, ha.idxL, ha.ne⟩, hy, hg⟩
      · refine lt_of_lt_of_le ?_ (work_mono (show s.ki + 1 ≤ m + 1 by have := hp.i_le; omega))
        rw [hwk]; omega

end
end US
end DK2
