import Verif.EHT
import Verif.IterProofs
import Verif.RealSizing
/-!
# Properties of `EdgeHashTable` and `Container0` (C18–C21)
-/

namespace DK2

/-! ## C18 EdgeHashTable is a finite map -/

namespace EHT

/-- The table after a sequence of calls on a table constructed with `n` buckets. -/
def HT.runCalls (n : Nat) (cs : List Call) : HT := cs.foldl HT.step (HT.new n)

/-- A call that leaves the entry of `e` alone: it neither names `e` nor clears the table. -/
def Call.Leaves (e : E32) : Call → Prop
  | .insert e' _ => e' ≠ e
  | .erase e' => e' ≠ e
  | .clear => False
  | .reserve _ => True

/-- Specification: `v` is the index given by the last insertion of `e`, not undone since. -/
def LastInserted (cs : List Call) (e : E32) (v : BitVec 32) : Prop :=
  ∃ pre post, cs = pre ++ Call.insert e v :: post ∧ ∀ c ∈ post, c.Leaves e

theorem LastInserted.snoc {cs : List Call} {c : Call} {e : E32} {v : BitVec 32} :
    LastInserted (cs ++ [c]) e v ↔ c = .insert e v ∨ (c.Leaves e ∧ LastInserted cs e v) := by
  constructor
  · rintro ⟨pre, post, h, hp⟩
    rcases List.eq_nil_or_concat post with rfl | ⟨post', c', rfl⟩
    · have := List.append_inj' h rfl
      simp at this
      exact Or.inl this.2
    · have h' : cs ++ [c] = (pre ++ Call.insert e v :: post') ++ [c'] := by simpa using h
      have := List.append_inj' h' rfl
      simp at this
      obtain ⟨h1, rfl⟩ := this
      exact Or.inr ⟨hp c (by simp), pre, post', h1, fun x hx => hp x (by simp [hx])⟩
  · rintro (rfl | ⟨h, pre, post, rfl, hp⟩)
    · exact ⟨cs, [], rfl, by simp⟩
    · refine ⟨pre, post ++ [c], by simp, ?_⟩
      intro x hx
      rcases List.mem_append.1 hx with h2 | h2
      · exact hp x h2
      · simp at h2; subst h2; exact h

theorem HT.runCalls_get (n : Nat) (cs : List Call) :
    (HT.runCalls n cs).WF ∧ ∀ e v, (HT.runCalls n cs).get e = some v ↔ LastInserted cs e v := by
  induction cs using List.reverseRecOn with
  | nil =>
    obtain ⟨w, h⟩ := HT.new_wf n
    refine ⟨w, fun e v => ?_⟩
    show (HT.new n).get e = some v ↔ _
    rw [h e]
    simp [LastInserted]
  | append_singleton cs c ih =>
    obtain ⟨w, h⟩ := ih
    have e1 : HT.runCalls n (cs ++ [c]) = (HT.runCalls n cs).step c := by simp [HT.runCalls]
    rw [e1]
    cases c with
    | insert e' v' =>
      obtain ⟨w', h'⟩ := w.insert e' v'
      refine ⟨w', fun e v => ?_⟩
      show (HT.insert _ e' v').get e = some v ↔ _
      rw [h', LastInserted.snoc, ← h]
      by_cases he : e = e'
      · subst he; simp [Call.Leaves]
      · have : e' ≠ e := fun h => he h.symm
        simp [he, this, Call.Leaves]
    | erase e' =>
      obtain ⟨w', h'⟩ := w.erase e'
      refine ⟨w', fun e v => ?_⟩
      show (HT.erase _ e').get e = some v ↔ _
      rw [h', LastInserted.snoc, ← h]
      by_cases he : e = e'
      · subst he; simp [Call.Leaves]
      · have : e' ≠ e := fun h => he h.symm
        simp [he, this, Call.Leaves]
    | clear =>
      obtain ⟨w', h'⟩ := w.clear
      refine ⟨w', fun e v => ?_⟩
      show (HT.clear _).get e = some v ↔ _
      rw [h', LastInserted.snoc]
      simp [Call.Leaves]
    | reserve m =>
      obtain ⟨w', h'⟩ := w.reserve m
      refine ⟨w', fun e v => ?_⟩
      show (HT.reserve _ m).get e = some v ↔ _
      rw [h', LastInserted.snoc, ← h]
      simp [Call.Leaves]

/-- C18: whatever the initial size and the calls (rehashing included), `find` is the last index inserted
for the edge, `-1` exactly when there is none, and `contains` says which. -/
theorem C18_find (n : Nat) (cs : List Call) (e : E32) :
    (∀ v : BitVec 32, (HT.runCalls n cs).find e = (v.toNat : Int) ↔ LastInserted cs e v) ∧
    ((HT.runCalls n cs).find e = -1 ↔ ∀ v, ¬ LastInserted cs e v) ∧
    ((HT.runCalls n cs).contains e = true ↔ ∃ v, LastInserted cs e v) := by
  obtain ⟨_, h⟩ := HT.runCalls_get n cs
  have hf : ∀ t : HT, t.find e = match t.get e with | some v => (v.toNat : Int) | none => -1 := by
    intro t
    unfold HT.find HT.get
    cases (t.chain e).find? (fun p => p.1 = e) <;> rfl
  have hm1 : (HT.runCalls n cs).find e = -1 ↔ ∀ v, ¬ LastInserted cs e v := by
    rw [hf]
    cases hg : (HT.runCalls n cs).get e with
    | none =>
      refine ⟨fun _ v hv => ?_, fun _ => rfl⟩
      rw [(h e v).2 hv] at hg; cases hg
    | some w =>
      refine ⟨fun hh => ?_, fun hh => absurd ((h e w).1 hg) (hh w)⟩
      simp only at hh; omega
  refine ⟨fun v => ?_, hm1, ?_⟩
  · rw [hf, ← h e v]
    cases hg : (HT.runCalls n cs).get e with
    | none =>
      constructor
      · intro hh; simp only at hh; omega
      · intro hh; cases hh
    | some w =>
      simp only [Option.some.injEq]
      rw [Int.natCast_inj, BitVec.toNat_inj]
  · unfold HT.contains
    rw [decide_eq_true_iff, ne_eq, hm1]
    simp

/-- C18: the 64-bit key is injective on edges, and so is the mixed 64-bit hash (the truncation to 32
bits, `Hash::operator()`, cannot be). -/
theorem C18_key_injective (e e' : E32) : (key e = key e' ↔ e = e') ∧ (mix (key e) = mix (key e') ↔ e = e') :=
  ⟨⟨key_inj, fun h => h ▸ rfl⟩, ⟨fun h => key_inj (mix_inj h), fun h => h ▸ rfl⟩⟩

/-- Instance: insert twice, erase another edge, rehash: the second index is found. -/
example : (HT.runCalls 0 [.insert (1#32, 2#32) 5#32, .insert (2#32, 1#32) 6#32,
      .insert (1#32, 2#32) 7#32, .erase (2#32, 1#32), .reserve 9]).find (1#32, 2#32) = 7 :=
  ((C18_find 0 _ _).1 7#32).2 ⟨[.insert (1#32, 2#32) 5#32, .insert (2#32, 1#32) 6#32],
    [.erase (2#32, 1#32), .reserve 9], rfl, by simp [Call.Leaves]⟩

/-- Instance: the erased edge is not found. -/
example : (HT.runCalls 3 [.insert (2#32, 1#32) 6#32, .erase (2#32, 1#32)]).find (2#32, 1#32) = -1 := by
  decide

end EHT

/-! ## C19 Container0 is a set with insertion order -/

/-- A call on a `Container0`: `insert(x,y,n_edges)`, `erase(x,y)`, `clean()`. -/
inductive C0Call where
  | ins (e : Edge) (nEdges : Nat)
  | del (e : Edge)
  | clean

/-- Specification: a list without repetitions, in insertion order. -/
def c0Spec : List C0Call → List Edge := List.foldl (fun l c =>
  match c with
  | .ins e _ => if e ∈ l then l else l ++ [e]
  | .del e => l.filter (fun e' => decide (e' ≠ e))
  | .clean => []) []

namespace C0

/-- One call. -/
def call (S : Sizing) (c : C0) : C0Call → Res C0
  | .ins e m => c.insert S e m
  | .del e => do
    let r ← c.erase e
    .ok r.2
  | .clean => c.clean

/-- A sequence of calls. -/
def calls (S : Sizing) : C0 → List C0Call → Res C0
  | c, [] => .ok c
  | c, o :: os => do
    let c' ← c.call S o
    calls S c' os

end C0

/-- One call, on a well-formed container: it returns, with the specified content, unless it inserts a new
edge without room. -/
theorem C0.WF.call {c : C0} (h : c.WF) (S : Sizing) {pre : List C0Call} (hl : c.live = c0Spec pre)
    (o : C0Call) :
    (∃ c', c.call S o = .ok c' ∧ c'.WF ∧ c'.live = c0Spec (pre ++ [o]) ∧ c'.nVertices = c.nVertices) ∨
    (∃ e m, o = .ins e m ∧ e ∉ c.live ∧ ¬ c.room S m ∧ c.call S o = .ub) := by
  have hs : c0Spec (pre ++ [o]) = (match o with
      | .ins e _ => if e ∈ c.live then c.live else c.live ++ [e]
      | .del e => c.live.filter (fun e' => decide (e' ≠ e))
      | .clean => []) := by
    rw [hl]; unfold c0Spec; rw [List.foldl_append]; rfl
  cases o with
  | ins e m =>
    by_cases he : e ∈ c.live
    · left
      refine ⟨c, C0.insert_present h he, h, ?_, rfl⟩
      rw [hs]; simp [he]
    · by_cases hr : c.room S m
      · left
        obtain ⟨c', a1, a2, a3, _, _, a4⟩ := C0.insert_absent h he hr
        refine ⟨c', a1, a2, ?_, a4⟩
        rw [hs, a3]; simp [he]
      · exact Or.inr ⟨e, m, rfl, he, hr, C0.insert_noroom h he hr⟩
  | del e =>
    left
    obtain ⟨c', a1, a2, a3, _, _, a4⟩ := h.erase_ok e
    refine ⟨c', by simp [C0.call, a1], a2, ?_, a4⟩
    rw [hs, a3]
  | clean =>
    left
    obtain ⟨c', a1, a2, a3, _, _, _, a4⟩ := h.clean_ok
    exact ⟨c', a1, a2, by rw [hs, a3], a4⟩

theorem C0.WF.calls {c : C0} (h : c.WF) (S : Sizing) : ∀ (os : List C0Call) {pre : List C0Call} {c' : C0},
    c.live = c0Spec pre → c.calls S os = .ok c' → c'.WF ∧ c'.live = c0Spec (pre ++ os) ∧
      c'.nVertices = c.nVertices := by
  intro os
  induction os generalizing c with
  | nil =>
    intro pre c' hl hr
    cases hr
    exact ⟨h, by simpa using hl, rfl⟩
  | cons o os ih =>
    intro pre c' hl hr
    obtain ⟨c1, h1, h2⟩ := Res.bind_eq_ok.1 hr
    rcases h.call S hl o with ⟨c2, b1, b2, b3, b4⟩ | ⟨_, _, _, _, _, b⟩
    · rw [b1] at h1; cases h1
      obtain ⟨d1, d2, d3⟩ := ih b2 b3 h2
      exact ⟨d1, by rw [d2]; simp, by rw [d3, b4]⟩
    · rw [b] at h1; cases h1

/-- The state after a returning sequence of calls. -/
theorem C0.calls_spec {S : Sizing} {n : Nat} {os : List C0Call} {c : C0}
    (hr : (C0.new S n).calls S os = .ok c) : c.WF ∧ c.live = c0Spec os ∧ c.nVertices = n := by
  have h0 : (C0.new S n).live = c0Spec [] := by
    simp [C0.live, C0.liveSlots, C0.new, c0Spec]
  obtain ⟨h1, h2, h3⟩ := (C0.new_wf S n).calls S os h0 hr
  exact ⟨h1, h2, h3⟩

/-- C19: after any sequence of calls that returns, `contains` is membership in the specified list, `size`
its length, the list has no repetition, the flush reads exactly this list in insertion order, and `erase`
returns whether the edge was there, leaving the list without it. -/
theorem C19_set (S : Sizing) (n : Nat) (os : List C0Call) (c : C0)
    (hr : (C0.new S n).calls S os = .ok c) :
    (∀ e, c.contains e = .ok (decide (e ∈ c0Spec os))) ∧ c.size = (c0Spec os).length ∧
    (c0Spec os).Nodup ∧ c.converted = .ok (c0Spec os) ∧
    (∀ e, ∃ c', c.erase e = .ok (decide (e ∈ c0Spec os), c') ∧
      ∀ e', c'.contains e' = .ok (decide (e' ∈ c0Spec os ∧ e' ≠ e))) := by
  obtain ⟨h, hl, _⟩ := C0.calls_spec hr
  rw [← hl]
  refine ⟨h.contains_eq, h.size_eq, h.live_nodup, h.converted_eq, fun e => ?_⟩
  obtain ⟨c', a1, a2, a3, _⟩ := h.erase_ok e
  refine ⟨c', a1, fun e' => ?_⟩
  rw [a2.contains_eq, a3]
  simp [List.mem_filter]

/-- C19: `erase` and `clean` always return; an `insert` fails to return exactly when it inserts a new
edge although every slot has been handed out since the last `clean` (erased slots are not reused). -/
theorem C19_returns (S : Sizing) (n : Nat) (os : List C0Call) (c : C0)
    (hr : (C0.new S n).calls S os = .ok c) :
    (∀ e, ∃ c', c.call S (.del e) = .ok c') ∧ (∃ c', c.call S .clean = .ok c') ∧
    (∀ e m, (∃ c', c.call S (.ins e m) = .ok c') ↔
      (e ∈ c0Spec os ∨ c.nElements < max c.maxEdges (S.maxsz (max n m) 0))) := by
  obtain ⟨h, hl, hn⟩ := C0.calls_spec hr
  refine ⟨fun e => ?_, ?_, fun e m => ?_⟩
  · obtain ⟨c', a1, _⟩ := h.erase_ok e
    exact ⟨c', by simp [C0.call, a1]⟩
  · obtain ⟨c', a1, _⟩ := h.clean_ok
    exact ⟨c', a1⟩
  · rw [← hl]
    have hroom : c.room S m ↔ c.nElements < max c.maxEdges (S.maxsz (max n m) 0) := by
      unfold C0.room; rw [hn]
    rw [← hroom]
    by_cases he : e ∈ c.live
    · exact ⟨fun _ => Or.inl he, fun _ => ⟨c, C0.insert_present h he⟩⟩
    · by_cases hr' : c.room S m
      · obtain ⟨c', a1, _⟩ := C0.insert_absent h he hr'
        exact ⟨fun _ => Or.inr hr', fun _ => ⟨c', a1⟩⟩
      · constructor
        · rintro ⟨c', hc⟩
          have : c.call S (.ins e m) = .ub := C0.insert_noroom h he hr'
          rw [this] at hc; cases hc
        · rintro (h1 | h1)
          · exact absurd h1 he
          · exact absurd h1 hr'

/-- Example calls: three insertions, an erasure, an insertion after it. -/
def c0Ops : List C0Call :=
  [.ins (0, 1) 0, .ins (2, 1) 0, .ins (0, 3) 0, .ins (0, 1) 0, .del (2, 1), .ins (0, 2) 0]

/-- Instance of C19/C20/C21 with the real thresholds (two vertices: four slots): the example returns, with
`(0,1),(0,3),(0,2)` in this order. -/
example : ∃ c, (C0.new realSizing 2).calls realSizing c0Ops = .ok c ∧
    c0Spec c0Ops = [(0, 1), (0, 3), (0, 2)] := by
  have h4 : realSizing.maxsz 2 0 = 4 := by
    rw [← tab_maxsz (by decide) (by decide) (by decide)]; decide
  have h : C0.new realSizing 2 = C0.new ⟨fun _ _ => 4, fun _ _ => false⟩ 2 := by simp [C0.new, h4]
  rw [h]
  exact ⟨_, rfl, by decide⟩

/-! ## C20 neighbours, most recent first -/

/-- C20: `list_neighbours`, `neigh_it` and the neighbour iterator all visit the successors of `x` in
reverse insertion order; all terminate without leaving the vectors. -/
theorem C20_neighbours (S : Sizing) (n : Nat) (os : List C0Call) (c : C0)
    (hr : (C0.new S n).calls S os = .ok c) (x : Nat) :
    c.listNeighbours x = .ok (((c0Spec os).filter (fun e => decide (e.1 = x))).map (·.2)).reverse ∧
    (∀ (σ : Type) (func : σ → Nat → σ) (s : σ), c.neighIt x func s =
      .ok ((((c0Spec os).filter (fun e => decide (e.1 = x))).map (·.2)).reverse.foldl func s)) ∧
    (∃ it, c.nbBegin x = .ok it ∧
      ∀ f, ((c0Spec os).filter (fun e => decide (e.1 = x))).length < f →
        drive C0.It.ptr c.nbPost f it =
          .ok (((c0Spec os).filter (fun e => decide (e.1 = x))).map (·.2)).reverse) := by
  obtain ⟨h, hl, _⟩ := C0.calls_spec hr
  rw [← hl]
  refine ⟨h.listNeighbours_eq x, fun σ func s => h.neighIt_eq func x s, ?_⟩
  obtain ⟨it, h1, h2⟩ := h.nb_all x
  exact ⟨it, h1, fun f hf => h2 f (by simpa using hf)⟩

/-- Instance: vertex 0 has the successors 2, 3, 1 (most recent first) after the example calls. -/
example : (((c0Spec c0Ops).filter (fun e => decide (e.1 = 0))).map (·.2)).reverse = [2, 3, 1] := by decide

/-! ## C21 clean -/

/-- C21: `clean()` returns, and then no edge is present, the size is 0, all neighbour lists are empty, the
capacity is unchanged and that many new edges fit again. -/
theorem C21_clean (S : Sizing) (n : Nat) (os : List C0Call) (c : C0)
    (hr : (C0.new S n).calls S os = .ok c) :
    ∃ c', c.clean = .ok c' ∧ (∀ e, c'.contains e = .ok false) ∧ c'.size = 0 ∧
      (∀ x, c'.listNeighbours x = .ok []) ∧ c'.maxEdges = c.maxEdges ∧ c'.nVertices = c.nVertices ∧
      (∀ es : List Edge, es.length ≤ c.maxEdges →
        ∃ c'', c'.calls S (es.map (fun e => .ins e 0)) = .ok c'') := by
  obtain ⟨h, _, _⟩ := C0.calls_spec hr
  obtain ⟨c', a1, a2, a3, a4, a5, a6, a7⟩ := h.clean_ok
  refine ⟨c', a1, ?_, ?_, ?_, a6, a7, ?_⟩
  · intro e; rw [a2.contains_eq, a3]; simp
  · rw [a2.size_eq, a3]; rfl
  · intro x; rw [a2.listNeighbours_eq, a3]; rfl
  · have key : ∀ (es : List Edge) (d : C0), d.WF → d.nElements + es.length ≤ d.maxEdges →
        ∃ c'', d.calls S (es.map (fun e => .ins e 0)) = .ok c'' := by
      intro es
      induction es with
      | nil => intro d _ _; exact ⟨d, rfl⟩
      | cons e es ih =>
        intro d hd hle
        simp only [List.length_cons] at hle
        by_cases he : e ∈ d.live
        · obtain ⟨c'', hc⟩ := ih d hd (by omega)
          exact ⟨c'', by simp only [List.map_cons, C0.calls, C0.call, C0.insert_present hd he, Res.ok_bind]; exact hc⟩
        · obtain ⟨d', b1, b2, _, b4, _⟩ := C0.insert_absent (S := S) (m := 0) hd he
            (by unfold C0.room; omega)
          have hmax : d.maxEdges ≤ d'.maxEdges := by
            have hl := hd.len_el
            have hlt : ¬ d.nElements ≥ d.elements.length := by omega
            have hx := hd.not_mem_live.1 he
            unfold C0.insert at b1
            rw [hx] at b1
            simp only [Option.isSome_none, Bool.false_eq_true, if_false, if_neg hlt] at b1
            obtain ⟨d2, e1, _, _, _, _, e2, _⟩ := hd.insertSlot_ok hx (by omega)
            rw [e1] at b1; cases b1
            omega
          obtain ⟨c'', hc⟩ := ih d' b2 (by omega)
          exact ⟨c'', by simp only [List.map_cons, C0.calls, C0.call, b1, Res.ok_bind]; exact hc⟩
    intro es hes
    exact key es c' a2 (by rw [a4, a6]; omega)

end DK2
