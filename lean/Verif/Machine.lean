import Verif.PropsRankF
/-!
# `pageRank` on a machine

`pageRank` of Algorithm.hpp on IEEE-754 `double`s with their infinities and NaN. On graphs with an edge none of these
appears, and the result is that of `IEEE.arith`; on graphs without edges `1.0f / total_nodes` is infinite.
-/

namespace DK2
open DK GraphI

/-- A `double`: a finite one as the number it stands for, an infinity (`true`: negative), or NaN. Simplified: the two zeros are
one (the code divides by no computed zero). -/
inductive Dbl where
  | fin (q : ℚ)
  | inf (neg : Bool)
  | nan
deriving DecidableEq, Repr

namespace Dbl

/-- Overflow gives an infinity. -/
def ofQ (q : ℚ) : Dbl := if 2 ^ 1024 ≤ |q| then inf (decide (q < 0)) else fin q

/-- Addition of `double`s. -/
def add : Dbl → Dbl → Dbl
  | nan, _ => nan
  | _, nan => nan
  | inf a, inf b => if a = b then inf a else nan
  | inf a, fin _ => inf a
  | fin _, inf b => inf b
  | fin x, fin y => ofQ (IEEE.arith.add x y)

/-- Subtraction of `double`s. -/
def sub : Dbl → Dbl → Dbl
  | nan, _ => nan
  | _, nan => nan
  | inf a, inf b => if a = b then nan else inf a
  | inf a, fin _ => inf a
  | fin _, inf b => inf (!b)
  | fin x, fin y => ofQ (IEEE.arith.sub x y)

/-- Multiplication of `double`s. -/
def mul : Dbl → Dbl → Dbl
  | nan, _ => nan
  | _, nan => nan
  | inf a, inf b => inf (a != b)
  | inf a, fin y => if y = 0 then nan else inf (a != decide (y < 0))
  | fin x, inf b => if x = 0 then nan else inf (decide (x < 0) != b)
  | fin x, fin y => ofQ (IEEE.arith.mul x y)

/-- `1.0f / m` for a `double` holding the natural number `m`. -/
def inv (m : Nat) : Dbl := if m = 0 then inf false else ofQ (IEEE.arith.inv m)

/-- `std::abs`. -/
def abs : Dbl → Dbl
  | nan => nan
  | inf _ => inf false
  | fin x => fin |x|

/-- `<`: false if an operand is NaN. -/
def lt : Dbl → Dbl → Bool
  | nan, _ => false
  | _, nan => false
  | inf a, inf b => a && !b
  | inf a, fin _ => a
  | fin _, inf b => !b
  | fin x, fin y => decide (x < y)

end Dbl

/-! ## The code -/

namespace GraphI

/-- `pr[i] += d` (Algorithm.hpp:244, 247). -/
def dAddAt (l : List Dbl) (i : Nat) (d : Dbl) : Res (List Dbl) := do
  let x ← rd l i
  wr l i (x.add d)

/-- The loop over the outgoing links of `i` (Algorithm.hpp:240-245); the added value `d` does not change in it. -/
def dSpread (d : Dbl) : List Nat → List Dbl → Res (List Dbl)
  | [], pr => .ok pr
  | v :: vs, pr => do
    let pr ← dAddAt pr v d
    dSpread d vs pr

/-- `err` (Algorithm.hpp:249-252). -/
def dErr (pr old : List Dbl) : Dbl := (pr.zip old).foldl (fun e p => e.add (p.1.sub p.2).abs) (.fin 0)

/-- The `for` loop over the nodes (Algorithm.hpp:238-260). `1.0f / outgoing_link[i].size()` is evaluated only if there is a
link; its value is a normalised `float`. -/
def dSweep (alpha conv dsum : Dbl) (n : Nat) (out : List (List Nat)) (old : List Dbl) :
    List Nat → List Dbl → Res (List Dbl ⊕ List Dbl)
  | [], pr => .ok (.inr pr)
  | i :: is, pr => do
    let o ← rd out i
    let x ← rd old i
    let pr ← dSpread ((alpha.mul x).mul (.fin (IEEE.arith.inv32 o.length))) o pr
    let pr ← dAddAt pr i ((dsum.mul (.inv n)).add (((Dbl.fin 1).sub alpha).mul (.inv n)))
    if (dErr pr old).lt ((Dbl.fin n).mul conv) then .ok (.inl pr)
    else dSweep alpha conv dsum n out old is pr

/-- `dangling_sum` (Algorithm.hpp:232-236), added up in `acc`. -/
def dDang (old : List Dbl) : List Nat → Dbl → Res Dbl
  | [], acc => .ok acc
  | k :: ks, acc => do
    let x ← rd old k
    dDang old ks (acc.add x)

/-- One turn of the `while` loop (Algorithm.hpp:229-260). -/
def dTurn (alpha conv : Dbl) (n : Nat) (out : List (List Nat)) (dang : List Nat) (old : List Dbl) :
    Res (List Dbl ⊕ List Dbl) := do
  let d ← dDang old dang (.fin 0)
  dSweep alpha conv (d.mul alpha) n out old (List.range n) (List.replicate n (.fin 0))

/-- The `while (step < max_iterations)` loop (Algorithm.hpp:228-262). -/
def dLoop (alpha conv : Dbl) (n : Nat) (out : List (List Nat)) (dang : List Nat) : Nat → List Dbl → Res (List Dbl)
  | 0, pr => .ok pr
  | k + 1, pr => do
    let r ← dTurn alpha conv n out dang pr
    match r with
    | .inl pr => .ok pr
    | .inr pr => dLoop alpha conv n out dang k pr

/-- `pageRank(convergence, max_iterations, alpha)` (Algorithm.hpp:205-269) on `double`s: the ranks of `0..N-1`. `N` and
`total_nodes` are exact (below `2^53`). -/
def pageRankD (G : GraphI) (conv : Dbl) (maxIter : Nat) (alpha : Dbl) : Res (List Dbl) := do
  let out ← G.outLinks (List.range G.nodes)
  let total := (out.filter (fun l => !l.isEmpty)).length
  let dang := (List.range G.nodes).filter (fun i => ((out[i]?).getD []).isEmpty)
  dLoop alpha conv G.nodes out dang maxIter (List.replicate G.nodes (.inv total))

end GraphI

/-! ## Finite operands -/

namespace Mach

theorem ofQ_small {q : ℚ} (h : |q| ≤ 2 ^ 1002) : Dbl.ofQ q = .fin q := by
  unfold Dbl.ofQ
  rw [if_neg]
  rw [not_le]
  exact lt_of_le_of_lt h (pow_lt_pow_right₀ (by norm_num) (by norm_num))

theorem rnd_le (x : ℚ) : |IEEE.rnd 53 x| ≤ (1 + 1 / 2 ^ 53) * |x| := by
  have h1 := IEEE.rnd_near 53 x
  have h2 := abs_add_le (IEEE.rnd 53 x - x) x
  rw [sub_add_cancel] at h2
  linarith

theorem pow_500 : (4 : ℚ) * 2 ^ 500 ≤ 2 ^ 1002 := by
  have h : (4 : ℚ) * 2 ^ 500 = 2 ^ 502 := by
    rw [show (502 : Nat) = 500 + 2 from rfl, pow_add]; ring
  rw [h]
  exact pow_le_pow_right₀ (by norm_num) (by norm_num)

theorem add_fin {x y : ℚ} (hx : |x| ≤ 2 ^ 500) (hy : |y| ≤ 2 ^ 500) :
    (Dbl.fin x).add (.fin y) = .fin (IEEE.arith.add x y) ∧ |IEEE.arith.add x y| ≤ (1 + 1 / 2 ^ 53) * (|x| + |y|) := by
  have h1 : |IEEE.arith.add x y| ≤ (1 + 1 / 2 ^ 53) * (|x| + |y|) :=
    le_trans (rnd_le (x + y)) (mul_le_mul_of_nonneg_left (abs_add_le x y) (by norm_num))
  refine ⟨ofQ_small (le_trans h1 (le_trans ?_ pow_500)), h1⟩
  generalize (2 : ℚ) ^ 500 = B at hx hy
  have h2 : (1 + 1 / 2 ^ 53 : ℚ) * (|x| + |y|) ≤ 2 * (|x| + |y|) := mul_le_mul_of_nonneg_right (by norm_num) (by positivity)
  linarith

theorem sub_fin {x y : ℚ} (hx : |x| ≤ 2 ^ 500) (hy : |y| ≤ 2 ^ 500) :
    (Dbl.fin x).sub (.fin y) = .fin (IEEE.arith.sub x y) ∧ |IEEE.arith.sub x y| ≤ (1 + 1 / 2 ^ 53) * (|x| + |y|) := by
  have h1 : |IEEE.arith.sub x y| ≤ (1 + 1 / 2 ^ 53) * (|x| + |y|) :=
    le_trans (rnd_le (x - y)) (mul_le_mul_of_nonneg_left (abs_sub x y) (by norm_num))
  refine ⟨ofQ_small (le_trans h1 (le_trans ?_ pow_500)), h1⟩
  generalize (2 : ℚ) ^ 500 = B at hx hy
  have h2 : (1 + 1 / 2 ^ 53 : ℚ) * (|x| + |y|) ≤ 2 * (|x| + |y|) := mul_le_mul_of_nonneg_right (by norm_num) (by positivity)
  linarith

theorem mul_fin {x y : ℚ} (hx : |x| ≤ 2 ^ 500) (hy : |y| ≤ 2 ^ 500) :
    (Dbl.fin x).mul (.fin y) = .fin (IEEE.arith.mul x y) ∧ |IEEE.arith.mul x y| ≤ 2 * (|x| * |y|) + 1 := by
  have h0 := IEEE.rndD_near (x * y)
  have h2 := abs_add_le (IEEE.rndD (x * y) - x * y) (x * y)
  rw [sub_add_cancel] at h2
  have h3 : (1 : ℚ) / 2 ^ 53 * |x * y| ≤ 1 * |x * y| := mul_le_mul_of_nonneg_right (by norm_num) (abs_nonneg _)
  have h4 : (1 : ℚ) / 2 ^ 1074 ≤ 1 := le_trans PR.ieee_eta (by norm_num)
  rw [← abs_mul]
  have h1 : |IEEE.arith.mul x y| ≤ 2 * |x * y| + 1 := by
    show |IEEE.rndD (x * y)| ≤ _
    generalize (1 : ℚ) / 2 ^ 1074 = eta at h0 h4
    linarith
  refine ⟨ofQ_small (le_trans h1 ?_), h1⟩
  have h5 : |x * y| ≤ 2 ^ 500 * 2 ^ 500 := by
    rw [abs_mul]
    exact mul_le_mul hx hy (abs_nonneg _) (by positivity)
  have h6 : (2 : ℚ) ^ 1002 = 4 * (2 ^ 500 * 2 ^ 500) := by
    rw [← pow_add, show (1002 : Nat) = 500 + 500 + 2 from rfl, pow_add _ (500 + 500)]; ring
  rw [h6]
  have h7 : (1 : ℚ) ≤ 2 ^ 500 * 2 ^ 500 := by
    have : (1 : ℚ) ≤ 2 ^ 500 := one_le_pow₀ (by norm_num)
    exact one_le_mul_of_one_le_of_one_le this this
  generalize (2 : ℚ) ^ 500 * 2 ^ 500 = C at h5 h7
  linarith

/-- Up to `2^200` nothing overflows. -/
theorem big_200 {x : ℚ} (h : |x| ≤ 2 ^ 200) : |x| ≤ 2 ^ 500 := le_trans h (pow_le_pow_right₀ (by norm_num) (by norm_num))

/-! ## Graphs without edges -/

theorem inv_pos {n : Nat} (hn : 0 < n) : 0 < IEEE.arith.inv n ∧ IEEE.arith.inv n ≤ 2 ∧ Dbl.inv n = .fin (IEEE.arith.inv n) := by
  have hn0 : (0 : ℚ) < (n : ℚ) := by exact_mod_cast hn
  have hi0 : (0 : ℚ) < 1 / (n : ℚ) := by positivity
  have h := abs_le.1 (IEEE.rnd_near 53 (1 / (n : ℚ)))
  rw [abs_of_pos hi0] at h
  have hq0 : 0 < IEEE.rnd 53 (1 / (n : ℚ)) := by
    have h2 : (1 : ℚ) / 2 ^ 53 * (1 / n) < 1 * (1 / n) := mul_lt_mul_of_pos_right (by norm_num) hi0
    linarith
  have hq1 : IEEE.rnd 53 (1 / (n : ℚ)) ≤ 2 := by
    have h1 : 1 / (n : ℚ) ≤ 1 := by
      rw [div_le_one hn0]; exact_mod_cast hn
    have h2 : (1 : ℚ) / 2 ^ 53 * (1 / n) ≤ 1 * (1 / n) := mul_le_mul_of_nonneg_right (by norm_num) hi0.le
    linarith
  refine ⟨hq0, hq1, ?_⟩
  unfold Dbl.inv
  rw [if_neg (by omega)]
  refine ofQ_small ?_
  show |IEEE.rnd 53 (1 / (n : ℚ))| ≤ _
  rw [abs_of_pos hq0]
  calc IEEE.rnd 53 (1 / (n : ℚ)) ≤ 2 ^ 1 := by rw [pow_one]; exact hq1
    _ ≤ 2 ^ 1002 := pow_le_pow_right₀ (by norm_num) (by norm_num)

theorem foldl_nan (l : List (Dbl × Dbl)) :
    l.foldl (fun (e : Dbl) (p : Dbl × Dbl) => e.add (p.1.sub p.2).abs) Dbl.nan = Dbl.nan := by
  induction l with
  | nil => rfl
  | cons p l ih => rw [List.foldl_cons]; exact ih

/-- Infinite ranks stay infinite: `err` is NaN after the first vertex. -/
theorem dSweep_inf {alpha conv : Dbl} {n : Nat} {c : Dbl} (hc : (Dbl.inf false |>.mul (.inv n)).add (((Dbl.fin 1).sub alpha).mul (.inv n)) = .inf false)
    {out : List (List Nat)} (hout : ∀ i, i < n → out[i]? = some []) (hcc : c = .inf false) :
    ∀ (m j : Nat), j + m = n → dSweep alpha conv c n out (List.replicate n (.inf false)) ((List.range m).map (j + ·))
      (List.replicate j (.inf false) ++ List.replicate m (.fin 0)) = .ok (.inr (List.replicate n (.inf false))) := by
  subst hcc
  intro m
  induction m with
  | zero => intro j h; simp at h; subst h; simp [dSweep]
  | succ m ih =>
    intro j h
    rw [List.range_succ_eq_map, List.map_cons, List.map_map]
    unfold dSweep
    have h1 : out[j + 0]? = some [] := hout _ (by omega)
    have h2 : (List.replicate n (Dbl.inf false))[j + 0]? = some (.inf false) := by
      rw [List.getElem?_replicate, if_pos (by omega)]
    rw [rd_of h1, rd_of h2]
    simp only [Res.ok_bind, dSpread]
    have hx : (List.replicate j (Dbl.inf false) ++ List.replicate (m + 1) (Dbl.fin 0))[j + 0]? = some (.fin 0) := by
      rw [List.getElem?_append_right (by simp)]; simp
    have hset : (List.replicate j (Dbl.inf false) ++ List.replicate (m + 1) (Dbl.fin 0)).set (j + 0) (.inf false) =
        List.replicate (j + 1) (.inf false) ++ List.replicate m (.fin 0) := by
      rw [List.set_append_right _ _ (by simp)]
      rw [List.replicate_succ' (n := j), List.append_assoc]
      simp [List.replicate_succ]
    have ha : dAddAt (List.replicate j (Dbl.inf false) ++ List.replicate (m + 1) (Dbl.fin 0)) (j + 0)
        ((Dbl.inf false |>.mul (.inv n)).add (((Dbl.fin 1).sub alpha).mul (.inv n))) =
        .ok (List.replicate (j + 1) (.inf false) ++ List.replicate m (.fin 0)) := by
      unfold dAddAt
      rw [rd_of hx]
      simp only [Res.ok_bind]
      rw [wr_of (by simp), hc]
      show Res.ok ((List.replicate j (Dbl.inf false) ++ List.replicate (m + 1) (Dbl.fin 0)).set (j + 0) (.inf false)) = _
      rw [hset]
    rw [ha]
    simp only [Res.ok_bind]
    have herr : dErr (List.replicate (j + 1) (Dbl.inf false) ++ List.replicate m (.fin 0)) (List.replicate n (.inf false)) = .nan := by
      obtain ⟨n', rfl⟩ : ∃ n', n = n' + 1 := ⟨n - 1, by omega⟩
      unfold dErr
      rw [List.replicate_succ, List.replicate_succ, List.cons_append, List.zip_cons_cons, List.foldl_cons]
      exact foldl_nan _
    rw [herr]
    have hlt : Dbl.nan.lt ((Dbl.fin n).mul conv) = false := rfl
    rw [hlt]
    simp only [Bool.false_eq_true, if_false]
    have := ih (j + 1) (by omega)
    have he : (fun x => j + x) ∘ Nat.succ = (fun x => j + 1 + x) := by funext x; simp; omega
    rw [he]
    exact this

theorem dDang_inf {n : Nat} : ∀ (ks : List Nat) (a : Dbl), (a = .inf false ∨ (∃ q, a = .fin q) ∧ ks ≠ []) → (∀ k ∈ ks, k < n) →
    dDang (List.replicate n (.inf false)) ks a = .ok (.inf false) := by
  intro ks
  induction ks with
  | nil =>
    intro a h _
    rcases h with h | h
    · rw [h]; rfl
    · exact absurd rfl h.2
  | cons k ks ih =>
    intro a h hk
    unfold dDang
    have h2 : (List.replicate n (Dbl.inf false))[k]? = some (.inf false) := by
      rw [List.getElem?_replicate, if_pos (hk k (by simp))]
    rw [rd_of h2]
    simp only [Res.ok_bind]
    have h3 : a.add (.inf false) = .inf false := by
      rcases h with rfl | ⟨⟨q, rfl⟩, _⟩ <;> rfl
    rw [h3]
    exact ih _ (Or.inl rfl) (fun x hx => hk x (by simp [hx]))

/-- Without any link all ranks are infinite, after any number of sweeps. -/
theorem pageRankD_empty {G : GraphI} (h0 : 0 < G.nodes) (hL : ∀ x, x < G.nodes → G.listNb x = .ok []) {conv : Dbl} {a : ℚ}
    (ha : 0 < a) (ha1 : a ≤ 1) (k : Nat) :
    G.pageRankD conv k (.fin a) = .ok (List.replicate G.nodes (.inf false)) := by
  unfold pageRankD
  rw [outLinks_ok (L := fun _ => []) (fun x hx => hL x (List.mem_range.1 hx))]
  simp only [Res.ok_bind]
  have hf : (((List.range G.nodes).map (fun _ => ([] : List Nat))).filter (fun l => !l.isEmpty)).length = 0 := by
    rw [List.length_eq_zero_iff, List.filter_eq_nil_iff]
    intro l hl
    obtain ⟨_, _, rfl⟩ := List.mem_map.1 hl
    simp
  have hout : ∀ i, i < G.nodes → ((List.range G.nodes).map (fun _ => ([] : List Nat)))[i]? = some [] := by
    intro i hi; simp [hi]
  have hd : (List.range G.nodes).filter (fun i => ((((List.range G.nodes).map (fun _ => ([] : List Nat)))[i]?).getD []).isEmpty) =
      List.range G.nodes := by
    rw [List.filter_eq_self]
    intro i hi
    rw [hout i (List.mem_range.1 hi)]; rfl
  rw [hf, hd]
  have hstart : Dbl.inv 0 = .inf false := rfl
  rw [hstart]
  induction k with
  | zero => rfl
  | succ k ih =>
    have hturn : dTurn (.fin a) conv G.nodes ((List.range G.nodes).map (fun _ => [])) (List.range G.nodes)
        (List.replicate G.nodes (.inf false)) = .ok (.inr (List.replicate G.nodes (.inf false))) := by
      unfold dTurn
      rw [dDang_inf _ _ (Or.inr ⟨⟨0, rfl⟩, by
        intro h
        have := congrArg List.length h
        simp at this; omega⟩) (fun k hk => List.mem_range.1 hk)]
      simp only [Res.ok_bind]
      obtain ⟨hq0, hq1, hq⟩ := inv_pos h0
      have hm : (Dbl.inf false).mul (.fin a) = .inf false := by
        simp [Dbl.mul, ha.ne', not_lt.2 ha.le]
      have hc : ((Dbl.inf false).mul (.inv G.nodes)).add (((Dbl.fin 1).sub (.fin a)).mul (.inv G.nodes)) = .inf false := by
        have h1 : (Dbl.inf false).mul (.fin (IEEE.arith.inv G.nodes)) = .inf false := by
          simp [Dbl.mul, hq0.ne', not_lt.2 hq0.le]
        rw [hq, h1]
        have h1a : |(1 : ℚ)| ≤ 2 ^ 200 := by norm_num
        have haa : |a| ≤ 2 ^ 200 := by
          rw [abs_of_pos ha]
          exact le_trans ha1 (by norm_num)
        obtain ⟨z1, z2⟩ := sub_fin (big_200 h1a) (big_200 haa)
        have hz : |IEEE.arith.sub 1 a| ≤ 2 ^ 200 := by
          refine le_trans z2 ?_
          rw [abs_of_pos ha, abs_one]
          norm_num
          linarith
        obtain ⟨y1, _⟩ := mul_fin (big_200 hz) (big_200 (x := IEEE.arith.inv G.nodes) (by
          rw [abs_of_pos hq0]
          exact le_trans hq1 (by norm_num)))
        rw [z1, y1]
        rfl
      rw [hm]
      have := dSweep_inf (conv := conv) hc hout rfl G.nodes 0 (by simp)
      simpa using this
    unfold dLoop
    rw [hturn]
    exact ih

/-! ## Graphs with an edge: no overflow -/

/-- A vector of finite numbers. -/
def emb (l : List ℚ) : List Dbl := l.map Dbl.fin

theorem emb_get {l : List ℚ} {i : Nat} {x : ℚ} (h : l[i]? = some x) : (emb l)[i]? = some (.fin x) := by
  unfold emb; rw [List.getElem?_map, h]; rfl

theorem emb_replicate (n : Nat) (x : ℚ) : emb (List.replicate n x) = List.replicate n (.fin x) := by simp [emb]

theorem dAddAt_sim {l l' : List ℚ} {i : Nat} {d : ℚ} (hl : |(l[i]?).getD 0| ≤ 2 ^ 500) (hd : |d| ≤ 2 ^ 500)
    (h : fAddAt IEEE.arith l i d = .ok l') : dAddAt (emb l) i (.fin d) = .ok (emb l') := by
  unfold fAddAt at h
  obtain ⟨x, h1, h2⟩ := Res.bind_eq_ok.1 h
  have h3 := rd_eq_ok.1 h1
  obtain ⟨h4, h5⟩ := wr_eq_ok.1 h2
  rw [h3] at hl
  have hl : |x| ≤ 2 ^ 500 := hl
  unfold dAddAt
  rw [rd_of (emb_get h3)]
  simp only [Res.ok_bind]
  rw [(add_fin hl hd).1, wr_of (by unfold emb; rw [List.length_map]; exact h4)]
  simp only [emb, h5, List.map_set]

theorem dSpread_sim {d : ℚ} (hd : |d| ≤ 2 ^ 500) : ∀ {vs : List Nat} {pr pr' : List ℚ}, vs.Nodup → (∀ v ∈ vs, v < pr.length) →
    (∀ v, |(pr[v]?).getD 0| ≤ 2 ^ 500 ∨ v ∉ vs) → fSpread IEEE.arith d vs pr = .ok pr' →
    dSpread (.fin d) vs (emb pr) = .ok (emb pr') := by
  intro vs
  induction vs with
  | nil => intro pr pr' _ _ _ h; unfold fSpread at h; cases h; rfl
  | cons x vs ih =>
    intro pr pr' hnd hlt hB h
    unfold fSpread at h
    obtain ⟨p1, h1, h2⟩ := Res.bind_eq_ok.1 h
    obtain ⟨p1', a1, a2, a3⟩ := PR.fAddAt_vec (A := IEEE.arith) (hlt x (by simp)) d
    rw [h1] at a1; cases a1
    have hx := dAddAt_sim ((hB x).resolve_right (by simp)) hd h1
    unfold dSpread
    rw [hx]
    simp only [Res.ok_bind]
    refine ih (List.nodup_cons.1 hnd).2 (fun v hv => by rw [a2]; exact hlt v (by simp [hv])) (fun v => ?_) h2
    by_cases hv : v ∈ vs
    · left
      have hvx : v ≠ x := fun hh => (List.nodup_cons.1 hnd).1 (hh ▸ hv)
      rw [a3 v (hlt v (by simp [hv])), if_neg hvx]
      exact (hB v).resolve_right (by simp [hv])
    · exact Or.inr hv

section
variable {n : Nat} {alpha : ℚ} (c : PR.Cfg IEEE.arith (1 / 2 ^ 53) (1 / 2 ^ 22) (1 / 2 ^ 1074) (2 ^ 500) n alpha)
include c

/-- A partial sum of `j` of at most `n` numbers. -/
theorem part_le {j : Nat} (hj : j ≤ n) {Z : ℚ} (hZ : 0 ≤ Z) (hZ2 : Z ≤ 2 ^ 64) :
    (1 + 1 / 2 ^ 53) ^ j * ((j : ℚ) * Z) ≤ 2 ^ 200 := by
  have h1 := c.pow_le (j := j) (by omega)
  have h2 : (j : ℚ) ≤ 2 ^ 53 := by
    have := le_trans hj c.n53
    exact_mod_cast this
  have h3 : (j : ℚ) * Z ≤ 2 ^ 53 * 2 ^ 64 := mul_le_mul h2 hZ2 hZ (by norm_num)
  have h4 := mul_le_mul h1 h3 (by positivity) (by norm_num)
  refine le_trans h4 (by norm_num)

theorem dErr_fold : ∀ {l : List (ℚ × ℚ)} {e : ℚ} {j : Nat}, (∀ p ∈ l, |p.1| ≤ 2 ^ 60 ∧ |p.2| ≤ 2 ^ 60) →
    |e| ≤ (1 + 1 / 2 ^ 53) ^ j * ((j : ℚ) * 2 ^ 62) → j + l.length ≤ n →
    (l.map (fun p => (Dbl.fin p.1, Dbl.fin p.2))).foldl (fun (e : Dbl) (p : Dbl × Dbl) => e.add (p.1.sub p.2).abs) (.fin e) =
      .fin (l.foldl (fun e p => IEEE.arith.add e |IEEE.arith.sub p.1 p.2|) e) := by
  intro l
  induction l with
  | nil => intro e j _ _ _; rfl
  | cons p l ih =>
    intro e j hp he hj
    simp only [List.length_cons] at hj
    obtain ⟨hp1, hp2⟩ := hp p (by simp)
    have b1 : |p.1| ≤ 2 ^ 200 := le_trans hp1 (by norm_num)
    have b2 : |p.2| ≤ 2 ^ 200 := le_trans hp2 (by norm_num)
    obtain ⟨s1, s2⟩ := sub_fin (big_200 b1) (big_200 b2)
    have hs : |IEEE.arith.sub p.1 p.2| ≤ 2 ^ 62 := by
      have : (1 + 1 / 2 ^ 53 : ℚ) * (|p.1| + |p.2|) ≤ 2 * (|p.1| + |p.2|) := mul_le_mul_of_nonneg_right (by norm_num) (by positivity)
      have h62 : (2 : ℚ) ^ 62 = 4 * 2 ^ 60 := by norm_num
      rw [h62]
      linarith
    have he2 := le_trans he (part_le c (j := j) (by omega) (Z := 2 ^ 62) (by positivity) (by norm_num))
    obtain ⟨t1, t2⟩ := add_fin (x := e) (y := |IEEE.arith.sub p.1 p.2|) (big_200 he2) (big_200 (by
      rw [abs_abs]; exact le_trans hs (by norm_num)))
    rw [List.map_cons, List.foldl_cons, List.foldl_cons]
    have hstep : (Dbl.fin e).add ((Dbl.fin p.1).sub (.fin p.2)).abs = .fin (IEEE.arith.add e |IEEE.arith.sub p.1 p.2|) := by
      rw [s1]; exact t1
    show List.foldl _ ((Dbl.fin e).add ((Dbl.fin p.1).sub (.fin p.2)).abs) _ = _
    rw [hstep]
    refine ih (j := j + 1) (fun q hq => hp q (by simp [hq])) (le_trans t2 ?_) (by omega)
    rw [abs_abs, pow_succ _ j]
    have h1 : |e| + |IEEE.arith.sub p.1 p.2| ≤ (1 + 1 / 2 ^ 53) ^ j * (((j + 1 : Nat) : ℚ) * 2 ^ 62) := by
      have h2 : (1 : ℚ) ≤ (1 + 1 / 2 ^ 53) ^ j := one_le_pow₀ (by norm_num)
      have h3 := mul_le_mul_of_nonneg_right h2 (by positivity : (0 : ℚ) ≤ 2 ^ 62)
      push_cast
      linarith
    refine le_trans (mul_le_mul_of_nonneg_left h1 (by norm_num : (0 : ℚ) ≤ 1 + 1 / 2 ^ 53)) (le_of_eq ?_)
    generalize (1 + 1 / 2 ^ 53 : ℚ) = w
    ring

theorem dErr_sim {p old : List ℚ} (hp : p.length = n) (hp2 : ∀ x ∈ p, |x| ≤ 2 ^ 60) (ho2 : ∀ x ∈ old, |x| ≤ 2 ^ 60) :
    dErr (emb p) (emb old) = .fin (fErr IEEE.arith p old) := by
  unfold dErr fErr emb
  rw [List.zip_map]
  have := dErr_fold c (l := p.zip old) (e := 0) (j := 0) (fun q hq =>
    ⟨hp2 _ (List.of_mem_zip hq).1, ho2 _ (List.of_mem_zip hq).2⟩) (by simp) (by simp [hp])
  exact this

theorem dDang_sim {old : List ℚ} (ho : ∀ k : Nat, |(old[k]?).getD 0| ≤ 2 ^ 60) : ∀ {ks : List Nat} {acc d : ℚ} {j : Nat},
    |acc| ≤ (1 + 1 / 2 ^ 53) ^ j * ((j : ℚ) * 2 ^ 62) → j + ks.length ≤ n → fDang IEEE.arith old ks acc = .ok d →
    dDang (emb old) ks (.fin acc) = .ok (.fin d) := by
  intro ks
  induction ks with
  | nil => intro acc d j _ _ h; unfold fDang at h; cases h; rfl
  | cons k ks ih =>
    intro acc d j he hj h
    simp only [List.length_cons] at hj
    unfold fDang at h
    obtain ⟨x, h1, h2⟩ := Res.bind_eq_ok.1 h
    have h3 := rd_eq_ok.1 h1
    have hx := ho k
    rw [h3] at hx
    have hx : |x| ≤ 2 ^ 60 := hx
    have he2 := le_trans he (part_le c (j := j) (by omega) (Z := 2 ^ 62) (by positivity) (by norm_num))
    obtain ⟨t1, t2⟩ := add_fin (x := acc) (y := x) (big_200 he2) (big_200 (le_trans hx (by norm_num)))
    unfold dDang
    rw [rd_of (emb_get h3)]
    simp only [Res.ok_bind]
    rw [t1]
    refine ih (j := j + 1) (le_trans t2 ?_) (by omega) h2
    rw [pow_succ _ j]
    have h1 : |acc| + |x| ≤ (1 + 1 / 2 ^ 53) ^ j * (((j + 1 : Nat) : ℚ) * 2 ^ 62) := by
      have h2 : (1 : ℚ) ≤ (1 + 1 / 2 ^ 53) ^ j := one_le_pow₀ (by norm_num)
      have h3 := mul_le_mul_of_nonneg_right h2 (by positivity : (0 : ℚ) ≤ 2 ^ 62)
      have h4 : (2 : ℚ) ^ 60 ≤ 2 ^ 62 := by norm_num
      push_cast
      linarith
    refine le_trans (mul_le_mul_of_nonneg_left h1 (by norm_num : (0 : ℚ) ≤ 1 + 1 / 2 ^ 53)) (le_of_eq ?_)
    generalize (1 + 1 / 2 ^ 53 : ℚ) = w
    ring

end

theorem inv32_le {m : Nat} (hm : m ≤ 2 ^ 53) : |IEEE.arith.inv32 m| ≤ 2 := by
  rcases Nat.eq_zero_or_pos m with rfl | h
  · have : IEEE.arith.inv32 0 = 0 := by
      show IEEE.rnd 24 (1 / IEEE.rnd 24 ((0 : Nat) : ℚ)) = 0
      simp [IEEE.rnd]
    rw [this]; norm_num
  · have h1 := IEEE.arith_ieee.inv32 m h hm
    have h2 : (1 : ℚ) / m ≤ 1 := by
      have : (1 : ℚ) ≤ (m : ℚ) := by exact_mod_cast h
      rw [div_le_one (by linarith)]; exact this
    have h3 : (0 : ℚ) ≤ 1 / m := by positivity
    have h4 := abs_le.1 h1
    have h5 : (1 : ℚ) / 2 ^ 22 * (1 / m) ≤ 1 / 2 ^ 22 * 1 := mul_le_mul_of_nonneg_left h2 (by norm_num)
    rw [abs_le]
    constructor <;> linarith

/-- The result of a turn or a sweep. -/
def embS : List ℚ ⊕ List ℚ → List Dbl ⊕ List Dbl
  | .inl p => .inl (emb p)
  | .inr p => .inr (emb p)

section
variable {n : Nat} {alpha : ℚ} (c : PR.Cfg IEEE.arith (1 / 2 ^ 53) (1 / 2 ^ 22) (1 / 2 ^ 1074) (2 ^ 500) n alpha)
include c

/-- One vertex of a sweep. -/
theorem step_sim {out : List (List Nat)} (hL : Links n out) (hnd : ∀ l ∈ out, l.Nodup) {conv dsum : ℚ} (hconv : |conv| ≤ 2 ^ 500)
    (hds : |dsum| ≤ 2 ^ 44) {old : List ℚ} (ho : old.length = n) (ho2 : ∀ k : Nat, |(old[k]?).getD 0| ≤ 2 ^ 40) {i : Nat}
    (hi : i < n) {pr : List ℚ} (hp : pr.length = n) (hp2 : ∀ v : Nat, |(pr[v]?).getD 0| ≤ 2 ^ 40) :
    ∃ p, (∀ is, fSweep IEEE.arith alpha conv dsum n out old (i :: is) pr =
        if fErr IEEE.arith p old < IEEE.arith.mul n conv then .ok (.inl p) else fSweep IEEE.arith alpha conv dsum n out old is p) ∧
      p.length = n ∧
      ∀ is, dSweep (.fin alpha) (.fin conv) (.fin dsum) n out (emb old) (i :: is) (emb pr) =
        if fErr IEEE.arith p old < IEEE.arith.mul n conv then .ok (.inl (emb p))
        else dSweep (.fin alpha) (.fin conv) (.fin dsum) n out (emb old) is (emb p) := by
  have hn := c.n0
  have hio : i < out.length := by rw [hL.len]; exact hi
  have hiold : i < old.length := by rw [ho]; exact hi
  have ho1 : out[i]? = some out[i] := List.getElem?_eq_getElem hio
  have hold : old[i]? = some old[i] := List.getElem?_eq_getElem hiold
  have hnd1 : (out[i]).Nodup := hnd _ (List.getElem_mem hio)
  have htgt : ∀ v ∈ out[i], v < n := hL.tgt _ (List.getElem_mem hio)
  have hlenle : (out[i]).length ≤ n := by
    have h1 : (out[i]) ⊆ List.range n := fun v hv => List.mem_range.2 (htgt v hv)
    have := (List.subperm_of_subset hnd1 h1).length_le
    simpa using this
  have hxo := ho2 i
  rw [hold] at hxo
  have hxo : |old[i]| ≤ 2 ^ 40 := hxo
  have hal : |alpha| ≤ 1 := by rw [abs_of_nonneg c.a0]; exact c.a1.le
  -- the share
  obtain ⟨s1, s2⟩ := mul_fin (x := alpha) (y := old[i]) (big_200 (le_trans hal (by norm_num))) (big_200 (le_trans hxo (by norm_num)))
  have s3 : |IEEE.arith.mul alpha old[i]| ≤ 2 ^ 42 := by
    have := mul_le_mul hal hxo (abs_nonneg _) (by norm_num)
    refine le_trans s2 ?_
    norm_num at this ⊢
    linarith
  have hi32 := inv32_le (le_trans hlenle c.n53)
  obtain ⟨q1, q2⟩ := mul_fin (big_200 (le_trans s3 (by norm_num))) (big_200 (le_trans hi32 (by norm_num)))
  obtain ⟨sh, hsh⟩ : ∃ sh, sh = IEEE.arith.mul (IEEE.arith.mul alpha old[i]) (IEEE.arith.inv32 (out[i]).length) := ⟨_, rfl⟩
  rw [← hsh] at q1 q2
  have q3 : |sh| ≤ 2 ^ 45 := by
    have := mul_le_mul s3 hi32 (abs_nonneg _) (by norm_num)
    refine le_trans q2 ?_
    norm_num at this ⊢
    linarith
  -- the constant
  obtain ⟨i0, i1, i2⟩ := inv_pos hn
  have hiv : |IEEE.arith.inv n| ≤ 2 := by rw [abs_of_pos i0]; exact i1
  obtain ⟨c1, c2⟩ := mul_fin (x := dsum) (y := IEEE.arith.inv n) (big_200 (le_trans hds (by norm_num))) (big_200 (le_trans hiv (by norm_num)))
  have c3 : |IEEE.arith.mul dsum (IEEE.arith.inv n)| ≤ 2 ^ 47 := by
    have := mul_le_mul hds hiv (abs_nonneg _) (by norm_num)
    refine le_trans c2 ?_
    norm_num at this ⊢
    linarith
  obtain ⟨e1, e2⟩ := sub_fin (x := 1) (y := alpha) (big_200 (by norm_num)) (big_200 (le_trans hal (by norm_num)))
  have e3 : |IEEE.arith.sub 1 alpha| ≤ 4 := by
    refine le_trans e2 ?_
    rw [abs_one]
    norm_num
    linarith
  obtain ⟨f1, f2⟩ := mul_fin (x := IEEE.arith.sub 1 alpha) (y := IEEE.arith.inv n) (big_200 (le_trans e3 (by norm_num)))
    (big_200 (le_trans hiv (by norm_num)))
  have f3 : |IEEE.arith.mul (IEEE.arith.sub 1 alpha) (IEEE.arith.inv n)| ≤ 2 ^ 47 := by
    have := mul_le_mul e3 hiv (abs_nonneg _) (by norm_num)
    refine le_trans f2 ?_
    norm_num at this ⊢
    linarith
  obtain ⟨g1, g2⟩ := add_fin (big_200 (le_trans c3 (by norm_num))) (big_200 (le_trans f3 (by norm_num)))
  obtain ⟨cn, hcn⟩ : ∃ cn, cn = IEEE.arith.add (IEEE.arith.mul dsum (IEEE.arith.inv n))
      (IEEE.arith.mul (IEEE.arith.sub 1 alpha) (IEEE.arith.inv n)) := ⟨_, rfl⟩
  rw [← hcn] at g1 g2
  have g3 : |cn| ≤ 2 ^ 50 := by
    refine le_trans g2 ?_
    norm_num at c3 f3 ⊢
    linarith
  -- the two updates
  obtain ⟨p1, a1, a2, a3⟩ := PR.fSpread_vec (A := IEEE.arith) sh (vs := out[i]) (pr := pr)
    (fun v hv => by rw [hp]; exact htgt v hv) hnd1
  obtain ⟨p2, b1, b2, b3⟩ := PR.fAddAt_vec (A := IEEE.arith) (l := p1) (i := i) (by rw [a2, hp]; exact hi) cn
  have hlen2 : p2.length = n := by rw [b2, a2, hp]
  have hp1 : ∀ v : Nat, |(p1[v]?).getD 0| ≤ 2 ^ 47 := by
    intro v
    by_cases hv : v < n
    · rw [a3 v (by rw [hp]; exact hv)]
      split
      · have := (add_fin (x := (pr[v]?).getD 0) (y := sh) (big_200 (le_trans (hp2 v) (by norm_num)))
          (big_200 (le_trans q3 (by norm_num)))).2
        refine le_trans this ?_
        have := hp2 v
        norm_num at this q3 ⊢
        linarith
      · exact le_trans (hp2 v) (by norm_num)
    · rw [List.getElem?_eq_none (by rw [a2, hp]; omega)]; simp
  have hpp2 : ∀ v : Nat, |(p2[v]?).getD 0| ≤ 2 ^ 60 := by
    intro v
    by_cases hv : v < n
    · rw [b3 v (by rw [a2, hp]; exact hv)]
      split
      · have := (add_fin (x := (p1[v]?).getD 0) (y := cn) (big_200 (le_trans (hp1 v) (by norm_num)))
          (big_200 (le_trans g3 (by norm_num)))).2
        refine le_trans this ?_
        have := hp1 v
        norm_num at this g3 ⊢
        linarith
      · exact le_trans (hp1 v) (by norm_num)
    · rw [List.getElem?_eq_none (by omega)]; simp
  have hmem : ∀ {l : List ℚ}, (∀ v : Nat, |(l[v]?).getD 0| ≤ 2 ^ 60) → ∀ x ∈ l, |x| ≤ 2 ^ 60 := by
    intro l h x hx
    obtain ⟨k, hk, rfl⟩ := List.mem_iff_getElem.1 hx
    have := h k
    rwa [List.getElem?_eq_getElem hk] at this
  have herr := dErr_sim c hlen2 (hmem hpp2) (hmem (fun v => le_trans (ho2 v) (by norm_num)))
  have hnc := (mul_fin (x := (n : ℚ)) (y := conv) (big_200 (by
    rw [abs_of_nonneg (Nat.cast_nonneg n)]
    have h53 : (n : ℚ) ≤ 2 ^ 53 := by exact_mod_cast c.n53
    exact le_trans h53 (by norm_num))) hconv).1
  refine ⟨p2, fun is => ?_, hlen2, fun is => ?_⟩
  · rw [fSweep, rd_of ho1, rd_of hold]
    simp only [Res.ok_bind]
    rw [← hsh, a1]
    simp only [Res.ok_bind]
    rw [← hcn, b1]
    simp only [Res.ok_bind]
  · have h500 : ∀ {x : ℚ} {m : Nat}, m ≤ 200 → |x| ≤ 2 ^ m → |x| ≤ 2 ^ 500 := fun hm h =>
      le_trans h (pow_le_pow_right₀ (by norm_num) (by omega))
    have d1 := dSpread_sim (h500 (by norm_num) q3) hnd1 (fun v hv => by rw [hp]; exact htgt v hv)
      (fun v => Or.inl (h500 (by norm_num) (hp2 v))) a1
    have d2 := dAddAt_sim (h500 (by norm_num) (hp1 i)) (h500 (by norm_num) g3) b1
    rw [dSweep, rd_of ho1, rd_of (emb_get hold)]
    simp only [Res.ok_bind]
    rw [s1, q1, d1]
    simp only [Res.ok_bind]
    rw [i2, c1, e1, f1, g1, d2]
    simp only [Res.ok_bind]
    rw [herr, hnc]
    simp only [Dbl.lt, decide_eq_true_eq]

/-- A sweep whose intermediate ranks stay small. -/
theorem dSweep_sim {out : List (List Nat)} (hL : Links n out) (hnd : ∀ l ∈ out, l.Nodup) {conv dsum : ℚ} (hconv : |conv| ≤ 2 ^ 500)
    (hds : |dsum| ≤ 2 ^ 44) {old : List ℚ} (ho : old.length = n) (ho2 : ∀ k : Nat, |(old[k]?).getD 0| ≤ 2 ^ 40) :
    ∀ {is : List Nat} {pr : List ℚ} {r : List ℚ ⊕ List ℚ}, (∀ i ∈ is, i < n) →
      (∀ pre suf, is = pre ++ suf → ∀ p, fSweep IEEE.arith alpha conv dsum n out old pre pr = .ok (.inr p) →
        p.length = n ∧ ∀ v : Nat, |(p[v]?).getD 0| ≤ 2 ^ 40) →
      fSweep IEEE.arith alpha conv dsum n out old is pr = .ok r →
      dSweep (.fin alpha) (.fin conv) (.fin dsum) n out (emb old) is (emb pr) = .ok (embS r) := by
  intro is
  induction is with
  | nil => intro pr r _ _ h; unfold fSweep at h; cases h; rfl
  | cons i is ih =>
    intro pr r hi hs h
    obtain ⟨hp, hp2⟩ := hs [] (i :: is) rfl pr (by unfold fSweep; rfl)
    obtain ⟨p, f1, f2, f3⟩ := step_sim c hL hnd hconv hds ho ho2 (hi i (by simp)) hp hp2
    rw [f1] at h
    rw [f3]
    by_cases hc : fErr IEEE.arith p old < IEEE.arith.mul n conv
    · rw [if_pos hc] at h ⊢
      cases h; rfl
    · rw [if_neg hc] at h ⊢
      refine ih (fun k hk => hi k (by simp [hk])) (fun pre suf hps q hq => ?_) h
      refine hs (i :: pre) suf (by rw [hps]; rfl) q ?_
      rw [f1, if_neg hc]
      exact hq

/-- The loop. -/
theorem dLoop_sim {L : Nat → List Nat} (hL : ∀ x, x < n → ∀ v ∈ L x, v < n) (hnd : ∀ x, x < n → (L x).Nodup)
    {conv X : ℚ} (hconv : |conv| ≤ 2 ^ 500) (hX2 : 2 ≤ X) (hX3 : 2 * X + 1 ≤ 2 ^ 40)
    (he4 : 4 * PR.reps (1 / 2 ^ 53 : ℚ) (1 / 2 ^ 22) n ≤ 1 - alpha) (hd4 : 4 * PR.rdel (1 / 2 ^ 1074 : ℚ) n ≤ 1 - alpha) :
    ∀ (k : Nat) {pr p : List ℚ}, pr.length = n → (∀ v, 0 ≤ PR.vec n pr v) → ∑ v, PR.vec n pr v ≤ X →
      fLoop IEEE.arith alpha conv n ((List.range n).map L) (dangling n ((List.range n).map L)) k pr = .ok p →
      dLoop (.fin alpha) (.fin conv) n ((List.range n).map L) (dangling n ((List.range n).map L)) k (emb pr) = .ok (emb p) := by
  have hlinks : Links n ((List.range n).map L) := by
    refine ⟨by simp, ?_⟩
    intro l hl v hv
    obtain ⟨x, hx, rfl⟩ := List.mem_map.1 hl
    exact hL x (List.mem_range.1 hx) v hv
  have hnd' : ∀ l ∈ (List.range n).map L, l.Nodup := by
    intro l hl
    obtain ⟨x, hx, rfl⟩ := List.mem_map.1 hl
    exact hnd x (List.mem_range.1 hx)
  have hW := PR.walk_stoch (F := ℚ) c.n0 hL
  have ha := c.a0
  have ha1 := c.a1
  have hr0 := PR.reps_nonneg c
  have hd0 := PR.rdel_nonneg c
  intro k
  induction k with
  | zero => intro pr p _ _ _ h; unfold fLoop at h; cases h; rfl
  | succ k ih =>
    intro pr p hp h0 hM h
    obtain ⟨t, c1, c2, _, _, d, d1, d2, d3⟩ := PR.fTurn_vec c hL hnd (conv := conv) hp h0 hM hX2 (by linarith) (by
      refine le_trans (?_ : _ ≤ (2 : ℚ) ^ 43) (pow_le_pow_right₀ (by norm_num) (by norm_num))
      have : (2 : ℚ) ^ 43 = 8 * 2 ^ 40 := by norm_num
      rw [this]; linarith)
    have hsm : ∀ v : Nat, |(pr[v]?).getD 0| ≤ 2 ^ 40 := by
      intro v
      by_cases hv : v < n
      · have h1 := h0 ⟨v, hv⟩
        have h2 := le_trans (Finset.single_le_sum (fun v _ => h0 v) (Finset.mem_univ (⟨v, hv⟩ : Fin n))) hM
        unfold PR.vec at h1 h2
        rw [abs_of_nonneg h1]
        simp only at h1 h2
        linarith
      · rw [List.getElem?_eq_none (by omega)]; simp
    have hdm : |d| ≤ 2 ^ 40 := le_trans d2 hX3
    have hal : |alpha| ≤ 1 := by rw [abs_of_nonneg ha]; exact ha1.le
    obtain ⟨m1, m2⟩ := mul_fin (x := d) (y := alpha) (big_200 (le_trans hdm (by norm_num))) (big_200 (le_trans hal (by norm_num)))
    have hds : |IEEE.arith.mul d alpha| ≤ 2 ^ 44 := by
      have := mul_le_mul hdm hal (abs_nonneg _) (by norm_num)
      refine le_trans m2 ?_
      norm_num at this ⊢
      linarith
    have hturn : dTurn (.fin alpha) (.fin conv) n ((List.range n).map L) (dangling n ((List.range n).map L)) (emb pr) =
        .ok (embS t) := by
      have c1' := c1
      unfold fTurn at c1'
      rw [d1] at c1'
      have c1' : fSweep IEEE.arith alpha conv (IEEE.arith.mul d alpha) n ((List.range n).map L) pr (List.range n)
        (List.replicate n 0) = .ok t := c1'
      unfold dTurn
      rw [dDang_sim c (j := 0) (acc := 0) (fun k => le_trans (hsm k) (by norm_num)) (by simp) (by
        rw [zero_add]
        have := List.length_filter_le (fun i => (((((List.range n).map L)[i]?).getD ([] : List Nat))).isEmpty) (List.range n)
        simp only [List.length_range] at this
        exact this) d1]
      simp only [Res.ok_bind]
      rw [m1, ← emb_replicate]
      exact dSweep_sim c hlinks hnd' hconv hds hp hsm (fun i hi => List.mem_range.1 hi) (fun pre suf hps q hq => by
        obtain ⟨e1, e2⟩ := d3 pre suf hps q hq
        exact ⟨e1, fun v => le_trans (e2 v) hX3⟩) c1'
    unfold fLoop at h
    rw [c1] at h
    simp only [Res.ok_bind] at h
    unfold dLoop
    rw [hturn]
    simp only [Res.ok_bind]
    cases t with
    | inl q => cases h; rfl
    | inr q =>
      obtain ⟨e1, e2, e3, _⟩ := c2 q rfl
      refine ih e1 e2 ?_ h
      have h1 : ∑ v, PR.vec n q v - ∑ v, PR.sweep n (PR.walk n L) alpha (PR.vec n pr) v ≤
          PR.dist1 (PR.vec n q) (PR.sweep n (PR.walk n L) alpha (PR.vec n pr)) := by
        rw [← Finset.sum_sub_distrib]
        exact Finset.sum_le_sum (fun v _ => le_abs_self _)
      rw [PR.sum_sweep c.n0 hW] at h1
      have h2 := mul_le_mul_of_nonneg_left hM ha
      have h3 : 0 ≤ ∑ v, PR.vec n pr v := Finset.sum_nonneg (fun v _ => h0 v)
      have hsX : alpha * ∑ v, PR.vec n pr v + (1 - alpha) ≤ X := by nlinarith
      have h4 := mul_le_mul_of_nonneg_left hsX hr0
      have h5 : PR.reps (1 / 2 ^ 53 : ℚ) (1 / 2 ^ 22) n * X ≤ (1 - alpha) / 4 * X := mul_le_mul_of_nonneg_right (by linarith) (by linarith)
      nlinarith

end

end Mach
end DK2
