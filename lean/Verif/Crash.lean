import Verif.PropsSer
/-!
# `serialize` and `load(…, true)` file by file, interrupted at any point

`Ser` gives the directory after a whole call.  Here a call is the list of file writes (or removals) it makes, and the
process may stop between two of them or inside one.
-/

namespace DK2

/-- One file written by `serialize`: the level file `(l+1).kt` (DKtree.hpp:351-360) or `0.kt` (DKtree.hpp:361-364).
Opening the `ofstream` truncates the file, so an old file of that name is gone once the write has begun. -/
inductive FileOp (K : K2Impl) where
  | level (l : Nat) (t : K.T)
  | header (h : Hdr)

namespace FileOp
variable {K : K2Impl}

/-- The directory after the file has been written and closed. -/
def apply : FileOp K → Dir K → Dir K
  | level l t, d => ⟨d.hdr, fun i => if i = l then some t else d.kt i⟩
  | header h, d => ⟨some h, d.kt⟩

/-- The directory when the process stops inside the write.  A cut-off level file reads as an arbitrary tree, or as no
file: `junk`.  Simplification: a cut-off text archive `0.kt` is always rejected by Boost, as an empty one is. -/
def torn (junk : Option K.T) : FileOp K → Dir K → Dir K
  | level l _, d => ⟨d.hdr, fun i => if i = l then junk else d.kt i⟩
  | header _, d => ⟨none, d.kt⟩

/-- A sequence of writes. -/
def applyAll (ops : List (FileOp K)) (d : Dir K) : Dir K := ops.foldl (fun d o => o.apply d) d

/-- The directory if the process stops after `p` complete writes, and, with `cut = some junk`, inside write `p`. -/
def stopAt (ops : List (FileOp K)) (p : Nat) (cut : Option (Option K.T)) (d : Dir K) : Dir K :=
  let d' := applyAll (ops.take p) d
  match cut, ops[p]? with
  | some junk, some o => o.torn junk d'
  | _, _ => d'

end FileOp

namespace DK
variable {K : K2Impl}

/-- The writes of `serialize` in order (DKtree.hpp:351-364): the levels `0..max_r` that hold a tree, then `0.kt`
with the buffered edges `es`. -/
def fileOps (g : DK K) (es : List Edge) : List (FileOp K) :=
  (List.range (g.maxR + 1)).filterMap (fun l => ((g.ks[l]?).join).map (fun t => FileOp.level l t)) ++
    [.header ⟨g.maxR, g.nv, g.nTotal, g.c0.nVertices, g.c0.maxEdges, es⟩]

end DK

/-- `clean_serialize` stopped part-way (DKtree.hpp:434-439): the order of a `directory_iterator` is unspecified, so
any set of files may be gone.  `hdrGone`: `0.kt`; `gone l`: `(l+1).kt`. -/
def Dir.without {K : K2Impl} (d : Dir K) (hdrGone : Bool) (gone : Nat → Bool) : Dir K :=
  ⟨if hdrGone then none else d.hdr, fun l => if gone l then none else d.kt l⟩

namespace FileOp
variable {K : K2Impl}

theorem applyAll_append (a b : List (FileOp K)) (d : Dir K) :
    applyAll (a ++ b) d = applyAll b (applyAll a d) := by
  simp [applyAll, List.foldl_append]

theorem applyAll_levels_hdr : ∀ {ops : List (FileOp K)} (_ : ∀ o ∈ ops, ∃ l t, o = level l t) (d : Dir K),
    (applyAll ops d).hdr = d.hdr
  | [], _, d => rfl
  | o :: ops, h, d => by
    obtain ⟨l, t, rfl⟩ := h o (by simp)
    show (applyAll ops _).hdr = _
    rw [applyAll_levels_hdr (fun o ho => h o (by simp [ho]))]
    rfl

/-- Whatever file a level has after some writes was there before or has been written. -/
theorem applyAll_kt : ∀ {ops : List (FileOp K)} {d : Dir K} {l : Nat} {t : K.T},
    (applyAll ops d).kt l = some t → d.kt l = some t ∨ level l t ∈ ops
  | [], _, _, _, h => Or.inl h
  | level i u :: ops, d, l, t, h => by
    rcases applyAll_kt (ops := ops) h with h | h
    · have h : (if l = i then some u else d.kt l) = some t := h
      by_cases hl : l = i
      · rw [if_pos hl] at h
        cases h; subst hl
        exact Or.inr (by simp)
      · rw [if_neg hl] at h
        exact Or.inl h
    · exact Or.inr (List.mem_cons_of_mem _ h)
  | header _ :: ops, d, l, t, h => by
    rcases applyAll_kt (ops := ops) h with h | h
    · exact Or.inl h
    · exact Or.inr (List.mem_cons_of_mem _ h)

end FileOp

namespace DK
variable {K : K2Impl}
open FileOp

/-- The level writes of `serialize`. -/
def levelOps (g : DK K) (r : Nat) : List (FileOp K) :=
  (List.range r).filterMap (fun l => ((g.ks[l]?).join).map (fun t => FileOp.level l t))

theorem fileOps_eq (g : DK K) (es : List Edge) : g.fileOps es = g.levelOps (g.maxR + 1) ++
    [.header ⟨g.maxR, g.nv, g.nTotal, g.c0.nVertices, g.c0.maxEdges, es⟩] := rfl

theorem levelOps_level (g : DK K) (r : Nat) : ∀ o ∈ g.levelOps r, ∃ l t, o = level l t := by
  intro o ho
  obtain ⟨l, _, h⟩ := List.mem_filterMap.1 ho
  obtain ⟨t, _, rfl⟩ := Option.map_eq_some_iff.1 h
  exact ⟨l, t, rfl⟩

theorem mem_levelOps {g : DK K} {r l : Nat} {t : K.T} (h : level l t ∈ g.levelOps r) :
    g.ks[l]? = some (some t) ∧ l < r := by
  obtain ⟨i, hi, h⟩ := List.mem_filterMap.1 h
  obtain ⟨u, h1, h2⟩ := Option.map_eq_some_iff.1 h
  cases h2
  refine ⟨?_, List.mem_range.1 hi⟩
  cases hk : g.ks[l]? with
  | none => rw [hk] at h1; cases h1
  | some o => rw [hk] at h1; cases o with
    | none => cases h1
    | some v => cases h1; rfl

theorem applyAll_levelOps (g : DK K) (d : Dir K) : ∀ r, applyAll (g.levelOps r) d =
    ⟨d.hdr, fun l => if l < r then (match (g.ks[l]?).join with | some t => some t | none => d.kt l) else d.kt l⟩ := by
  intro r
  induction r with
  | zero => simp [levelOps, applyAll]
  | succ r ih =>
    have e : g.levelOps (r + 1) = g.levelOps r ++ (((g.ks[r]?).join).map (fun t => FileOp.level r t)).toList := by
      unfold levelOps
      rw [List.range_succ, List.filterMap_append]
      congr 1
    rw [e, applyAll_append, ih]
    cases h : (g.ks[r]?).join with
    | none =>
      simp only [Option.map_none, Option.toList_none, applyAll, List.foldl_nil]
      congr 1
      funext l
      by_cases h1 : l < r
      · rw [if_pos h1, if_pos (by omega)]
      · rw [if_neg h1]
        by_cases h2 : l < r + 1
        · have : l = r := by omega
          subst this
          rw [if_pos h2, h]
        · rw [if_neg h2]
    | some t =>
      simp only [Option.map_some, Option.toList_some, applyAll, List.foldl_cons, List.foldl_nil, apply]
      congr 1
      funext l
      by_cases h0 : l = r
      · subst h0
        rw [if_pos rfl, if_pos (by omega), h]
      · rw [if_neg h0]
        by_cases h1 : l < r
        · rw [if_pos h1, if_pos (by omega)]
        · rw [if_neg h1, if_neg (by omega)]

/-- The writes together are what `serialize` does to the directory. -/
theorem fileOps_serialize {g : DK K} (hw : g.WInv) (hm : g.c0.marked = 0) (d : Dir K) :
    g.serialize d = .ok (applyAll (g.fileOps g.c0.live) d) := by
  rw [serialize_ok hw d hm, fileOps_eq, applyAll_append, applyAll_levelOps]
  simp only [applyAll, List.foldl_cons, List.foldl_nil, apply]
  congr 2
  funext l
  unfold writeLevels
  by_cases h : l ≤ g.maxR
  · rw [if_pos h, if_pos (by omega)]
    rfl
  · rw [if_neg h, if_neg (by omega)]

theorem load_no_header (S : Sizing) (x : DK K) {d : Dir K} (h : d.hdr = none) : x.load S d = .throws := by
  unfold load; rw [h]

/-- `load` succeeds on any directory whose header was written by a graph, whatever the level files are; every tree of
the result comes from a file. -/
theorem load_any {S : Sizing} {g : DK K} (hw : g.WInv) (hm : g.c0.marked = 0) {d : Dir K}
    (hd : d.hdr = some ⟨g.maxR, g.nv, g.nTotal, g.c0.nVertices, g.c0.maxEdges, g.c0.live⟩) :
    ∃ g', (blank K).load S d = .ok g' ∧ g'.c0.WF ∧ g'.c0.live = g.c0.live ∧ g'.nv = g.nv ∧ g'.nTotal = g.nTotal ∧
      g'.maxR = g.maxR ∧ g'.ks = readLevels d g.maxR (List.replicate RS none) := by
  obtain ⟨c, a1, a2, a3, _⟩ := load_ok (S := S) hw (x := blank K)
    (by show (List.replicate RS none).length = RS; simp) hm hd
  exact ⟨_, a1, a2, a3, rfl, rfl, rfl, rfl⟩

theorem readLevels_mem {d : Dir K} {r l : Nat} {t : K.T}
    (h : (readLevels d r (List.replicate RS none))[l]? = some (some t)) : l ≤ r ∧ d.kt l = some t := by
  rw [readLevels_getElem?] at h
  obtain ⟨o, ho, h⟩ := Option.map_eq_some_iff.1 h
  have ho : o = none := by
    rw [List.getElem?_replicate] at ho
    split at ho
    · exact (Option.some.inj ho).symm
    · cases ho
  subst ho
  by_cases hl : l ≤ r
  · rw [if_pos hl] at h
    refine ⟨hl, ?_⟩
    cases hk : d.kt l with
    | none => rw [hk] at h; cases h
    | some u => rw [hk] at h; exact h
  · rw [if_neg hl] at h; cases h

/-- An edge answered by the trees of a list is answered by one of its trees. -/
theorem treesContain_mem {e : Edge} : ∀ {ks : List (Option K.T)},
    treesContain K e ks = true ↔ ∃ (l : Nat) (t : K.T), ks[l]? = some (some t) ∧ K.adj t e = true
  | [] => by simp [treesContain]
  | none :: ks => by
    unfold treesContain
    rw [treesContain_mem (ks := ks)]
    constructor
    · rintro ⟨l, t, h1, h2⟩; exact ⟨l + 1, t, h1, h2⟩
    · rintro ⟨l, t, h1, h2⟩
      cases l with
      | zero => cases h1
      | succ l => exact ⟨l, t, h1, h2⟩
  | some u :: ks => by
    unfold treesContain
    by_cases hu : K.adj u e = true
    · rw [if_pos hu]; exact ⟨fun _ => ⟨0, u, rfl, hu⟩, fun _ => rfl⟩
    · rw [if_neg hu, treesContain_mem (ks := ks)]
      constructor
      · rintro ⟨l, t, h1, h2⟩; exact ⟨l + 1, t, h1, h2⟩
      · rintro ⟨l, t, h1, h2⟩
        cases l with
        | zero => cases h1; exact absurd h2 hu
        | succ l => exact ⟨l, t, h1, h2⟩

theorem contains_true_iff {g : DK K} (hw : g.c0.WF) {e : Edge} : g.contains e = .ok true ↔
    e ∈ g.c0.live ∨ ∃ (l : Nat) (t : K.T), g.ks[l]? = some (some t) ∧ K.adj t e = true := by
  unfold contains
  rw [hw.contains_eq]
  simp only [Res.ok_bind]
  by_cases h : e ∈ g.c0.live
  · simp [h]
  · simp [h, treesContain_mem]

end DK
end DK2
