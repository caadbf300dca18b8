import Verif.PropsFloat
import Verif.PropsBgFew
/-!
# C91 for the background classes

The thresholds computed in floating point (`floatSizing A`, `A` any library with relative error `2^-40`): what C56, C57, C100 and
C101 claim holds with them too.
-/

namespace DK2
open BG
open DK (inserts)
variable {K : K2Impl}

/-- C91 for C56, C57: any insertions into a background graph: every call is safe on every schedule, the history runs to its end,
and a pending merge ends within 15 steps of the worker. -/
theorem C91_background_insert (hK : K.Lawful) {A : FloatLib} (hA : A.Accurate) (wv : Bool) {n : Nat} (h2 : 2 ≤ n)
    {es : List Edge} (he : ∀ e ∈ es, InRange n e) :
    (∃ (s : BG K) (w : WPC K.T), BG.Reach wv K (floatSizing A) n (inserts es) s w) ∧
    ∀ (s : BG K) (w : WPC K.T), BG.Reach wv K (floatSizing A) n (inserts es) s w →
      (∀ e, InRange n e → CallSafe (floatSizing A) (BG.call wv (floatSizing A) (.add e)) s w) ∧
      (s.needs = true → ∃ k s' w', k ≤ 15 ∧ wrun (floatSizing A) k s w = .ok (s', w') ∧ s'.needs = false) ∧
      (s.needs = false →
        (∀ e, InRange n e → Answers (floatSizing A) (contains e) s w (fun b => b = true ↔ e ∈ es)) ∧
        (∀ x, x < n → Answers (floatSizing A) (listNeighbour x) s w (fun l => ∀ y, y ∈ l ↔ (x, y) ∈ es))) := by
  have hT := floatSizing_top hA
  refine ⟨C56_reachable hK hT wv h2 es he, fun s w hr => ⟨fun e hi p s' w' hx => ?_, C57_insertions hK hT wv h2 he hr, fun hi => ?_⟩⟩
  · obtain ⟨a, b, c, s2, w2, d⟩ := C56_insertions hK hT wv h2 he hr hi hx
    exact ⟨a, b, c, (), s2, w2, d⟩
  · have ho : OpsInRange n (inserts es) := by
      intro o hoo
      obtain ⟨e, h1, rfl⟩ := List.mem_map.1 hoo
      exact he e h1
    have hm : ∀ e, specMem (inserts es) e ↔ e ∈ es := fun e => specMem_inserts es e
    have hg : ∀ e, ¬ Ghost (inserts es) e := by
      rintro e ⟨pre, post, h1, _⟩
      have : Op.del e ∈ inserts es := by rw [h1]; simp
      obtain ⟨_, _, h⟩ := List.mem_map.1 this
      cases h
    obtain ⟨q1, q2⟩ := C36_no_loss_partial hK (floatSizing A) wv ho hr hi
    refine ⟨fun e he => ⟨(q1 e he).1, fun b s' w' hx => ?_⟩, fun x hx => ⟨(q2 x hx).1, fun l s' w' hx' y => ?_⟩⟩
    · have := (q1 e he).2 b s' w' hx
      rw [hm] at this
      exact ⟨fun h => (this.2 h).resolve_right (hg e), this.1⟩
    · have := (q2 x hx).2 l s' w' hx' y
      rw [hm] at this
      exact ⟨fun h => (this.2 h).resolve_right (hg _), this.1⟩

/-- C91 for C100: `DKtree_background_wait`, settled histories of fewer than `2^52` edges on 16 or more vertices. -/
theorem C91_background_settled (hK : K.Lawful) (hM1 : K.MarksOne) {A : FloatLib} (hA : A.Accurate) {n M : Nat} (hn : 16 ≤ n)
    (hMx : M < 2 ^ 52) {ops : List Op} (hs : Settled n (max n M / 8) M ops) (hno : ∀ e, ¬ ReAdded ops e) :
    (∃ (s : BG K) (w : WPC K.T), BG.Reach true K (floatSizing A) n ops s w) ∧
    ∀ (s : BG K) (w : WPC K.T), BG.Reach true K (floatSizing A) n ops s w →
      (∀ o, Settled n (max n M / 8) M (ops ++ [o]) → (∀ e, ¬ ReAdded (ops ++ [o]) e) →
        CallSafe (floatSizing A) (BG.call true (floatSizing A) o) s w) ∧
      (∃ l : List Edge, l.Nodup ∧ (∀ e, e ∈ l ↔ specMem ops e) ∧ s.numberEdges = l.length) ∧
      (s.needs = true → ∃ k s' w', k ≤ 15 ∧ wrun (floatSizing A) k s w = .ok (s', w') ∧ s'.needs = false) ∧
      (s.needs = false →
        (∀ e, InRange n e → Answers (floatSizing A) (contains e) s w (fun b => b = true ↔ specMem ops e)) ∧
        (∀ x, x < n → Answers (floatSizing A) (listNeighbour x) s w (fun l => l.Nodup ∧ ∀ y, y ∈ l ↔ specMem ops (x, y))) ∧
        (n ≤ 9999999 → BG.Shows (floatSizing A) n (specMem ops) s w)) := by
  have hS := floatSizing_calibrated hA
  have hX : M ≤ 2 ^ 52 - 1 := Nat.le_sub_one_of_lt hMx
  have hB : ∀ k, k ≤ M → (floatSizing A).maxsz (max n k) 0 ≤ max n M / 8 := fun k hk =>
    le_trans (hS.eighth (by omega)) (Nat.div_le_div_right (by omega))
  refine ⟨C100_reachable hK hM1 hS (by omega) hX hB hs hno, fun s w hr => ⟨fun o ho hn' => ?_, ?_⟩⟩
  · exact C100_calls hK hM1 hS (by omega) hX hB ho hn' hr
  · exact C100_exact hK hM1 hS (by omega) hX hB hs hno hr

/-- C91 for C101: build a graph of fewer than `2^52` edges, then prune it. -/
theorem C91_background_prune (hK : K.Lawful) (hM1 : K.MarksOne) {A : FloatLib} (hA : A.Accurate) (wv : Bool) {n : Nat}
    (h2 : 2 ≤ n) {es ds : List Edge} (hd : es.Nodup) (hX : es.length < 2 ^ 52) (he : ∀ e ∈ es, InRange n e)
    (hdr : ∀ e ∈ ds, InRange n e) (hra : RarePrune es ds) :
    (∃ (s : BG K) (w : WPC K.T), BG.Reach wv K (floatSizing A) n (inserts es ++ deletes ds) s w) ∧
    ∀ (s : BG K) (w : WPC K.T), BG.Reach wv K (floatSizing A) n (inserts es ++ deletes ds) s w →
      (∀ d, InRange n d → RarePrune es (ds ++ [d]) → CallSafe (floatSizing A) (BG.call wv (floatSizing A) (.del d)) s w) ∧
      s.numberEdges = (es.filter (fun e => decide (e ∉ ds))).length ∧
      (s.needs = true → ∃ k s' w', k ≤ 15 ∧ wrun (floatSizing A) k s w = .ok (s', w') ∧ s'.needs = false) ∧
      (s.needs = false →
        (∀ e, InRange n e → Answers (floatSizing A) (contains e) s w (fun b => b = true ↔ e ∈ es ∧ e ∉ ds)) ∧
        (∀ x, x < n → Answers (floatSizing A) (listNeighbour x) s w (fun l => l.Nodup ∧ ∀ y, y ∈ l ↔ (x, y) ∈ es ∧ (x, y) ∉ ds))) := by
  have hS := floatSizing_calibrated hA
  have hX' : es.length ≤ 2 ^ 52 - 1 := Nat.le_sub_one_of_lt hX
  refine ⟨C101_reachable hK hM1 hS wv h2 hd hX' he hdr hra, fun s w hr => ⟨fun d hdd hrd => ?_, ?_⟩⟩
  · exact C101_calls hK hM1 hS wv h2 hd hX' he (fun e h => by
      rcases List.mem_append.1 h with h | h
      · exact hdr e h
      · rw [List.mem_singleton.1 h]; exact hdd) hrd hr
  · exact C101_exact hK hM1 hS wv h2 hd hX' he hdr hra hr

/-- A concrete instance: two edges, on every schedule, with every accurate library. -/
example {A : FloatLib} (hA : A.Accurate) (wv : Bool) :
    ∃ (s : BG refK2) (w : WPC refK2.T), BG.Reach wv refK2 (floatSizing A) 5 (inserts [(0, 1), (1, 2)]) s w :=
  (C91_background_insert refK2_lawful hA wv (by decide) (by decide)).1

end DK2
