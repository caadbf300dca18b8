import Verif.DK
/-!
# Model of serialization and equality
`Container0::save/load/operator==` (Container0.hpp:189-264), `DKtree::serialize/load/operator==/clean_serialize`
(DKtree.hpp:330-440).

Boost text archives and `k2_tree::serialize/load` are assumed to read back exactly what they wrote; files are
opened and written without I/O error.
-/

namespace DK2

/-- `k2_tree::equal` (used in DKtree.hpp:410), external, with the behaviour assumed of it: reflexive, and trees
that compare equal answer alike. -/
structure K2Eq (K : K2Impl) where
  equal : K.T → K.T → Bool
  refl : ∀ t, equal t t = true
  adj_eq : ∀ t u e, equal t u = true → K.adj t e = K.adj u e
  neigh_eq : ∀ t u x, equal t u = true → K.neigh t x = K.neigh u x

/-- The reference tree with structural equality. -/
def refEq : K2Eq refK2 where
  equal t u := decide (t = u)
  refl t := by simp
  adj_eq t u e h := by simp at h; rw [h]
  neigh_eq t u x h := by simp at h; rw [h]

namespace C0

/-- One element of `elements_copy` (Container0.hpp:239-242): a slot marked free keeps the default-constructed
`Edge`, whose members are indeterminate (`none`; Graph.hpp:59). -/
def saveSlot (c : C0) (i : Nat) : Res (Option Edge) := do
  let f ← rd c.edgeFree i
  match f with
  | some _ => rd c.elementsNodes i
  | none => .ok none

/-- The vector `elements_copy` that `save` hands to the archive (Container0.hpp:238-243). -/
def saveEdges (c : C0) : Res (List (Option Edge)) := (List.range c.nElements).mapM c.saveSlot

/-- What `load` starts from (Container0.hpp:248-263): all slots free. -/
def blank (nv maxEdges : Nat) : C0 where
  edgeLst := fun _ => none
  adjMap := fun _ => none
  elements := List.replicate maxEdges NodeEdge.fresh
  elementsNodes := List.replicate maxEdges none
  edgeFree := (List.range maxEdges).map some
  marked := 0
  nElements := 0
  maxEdges := maxEdges
  nVertices := nv

/-- The loop `for (auto edge: copy_elements) insert(edge.x(), edge.y(), n_elements)`
(Container0.hpp:265-267). -/
def insertAll (S : Sizing) : C0 → List Edge → Res C0
  | c, [] => .ok c
  | c, e :: es => do
    let c' ← c.insert S e c.nElements
    insertAll S c' es

/-- The comparison loop of `operator==` (Container0.hpp:199-200): both sides are read for every
`i < n_elements`, whatever the earlier comparisons gave. -/
def eqNodes (a b : C0) : List Nat → Res Bool
  | [] => .ok true
  | i :: is => do
    let oa ← rd a.elementsNodes i
    let ea ← use oa
    let ob ← rd b.elementsNodes i
    let eb ← use ob
    let r ← eqNodes a b is
    .ok (decide (ea = eb) && r)

open Classical in
/-- `operator==` (Container0.hpp:189-204). -/
noncomputable def eq (a b : C0) : Res Bool := do
  let r ← eqNodes a b (List.range a.nElements)
  .ok (decide (a.nElements = b.nElements) && decide (a.maxEdges = b.maxEdges) &&
    decide (a.nVertices = b.nVertices) && decide (a.edgeLst = b.edgeLst) && decide (a.adjMap = b.adjMap) &&
    decide (a.elementsNodes.length = b.elementsNodes.length) && r && decide (a.edgeFree = b.edgeFree))

end C0

/-- The file `0.kt` (DKtree.hpp:334-339, Container0.hpp:234-244). -/
structure Hdr where
  maxR : Nat
  nv : Nat
  nTotal : Nat
  c0nv : Nat
  c0max : Nat
  edges : List Edge
  deriving DecidableEq, Repr

/-- The directory `dktree_serialize`: `0.kt`, and `kt l` is the file `(l+1).kt`. -/
structure Dir (K : K2Impl) where
  hdr : Option Hdr
  kt : Nat → Option K.T

/-- An empty directory. -/
def Dir.empty (K : K2Impl) : Dir K := ⟨none, fun _ => none⟩

namespace DK
variable {K : K2Impl}

/-- `DKtree()` (DKtree.hpp:63): an object to load into.  The buffer's counters are indeterminate; `load`
overwrites them before reading. -/
def blank (K : K2Impl) : DK K := ⟨0, 0, 0, C0.blank 0 0, List.replicate RS none⟩

/-- The level files after `serialize` (DKtree.hpp:351-360): only levels `≤ max_r` holding a tree are written,
no file is removed. -/
def writeLevels (g : DK K) (d : Dir K) : Nat → Option K.T := fun l =>
  if l ≤ g.maxR then
    match (g.ks[l]?).join with
    | some t => some t
    | none => d.kt l
  else d.kt l

/-- `serialize(out, dir)` (DKtree.hpp:346-365).  `junk i` is what the archive makes of the indeterminate `Edge`
of slot `i`: `none` for the standard's reading (undefined behaviour). -/
def serializeWith (junk : Nat → Option Edge) (g : DK K) (d : Dir K) : Res (Dir K) := do
  let es ← g.c0.saveEdges
  let es ← (es.mapIdx (fun i o => o.orElse (fun _ => junk i))).mapM use
  .ok ⟨some ⟨g.maxR, g.nv, g.nTotal, g.c0.nVertices, g.c0.maxEdges, es⟩, g.writeLevels d⟩

/-- `serialize(out, dir)`: writing an indeterminate value is undefined behaviour. -/
def serialize (g : DK K) (d : Dir K) : Res (Dir K) := g.serializeWith (fun _ => none) d

/-- The level loop of `load` (DKtree.hpp:380-394): a level without a file keeps the tree it had. -/
def readLevels (d : Dir K) (maxR : Nat) (ks : List (Option K.T)) : List (Option K.T) :=
  ks.mapIdx (fun l o => if l ≤ maxR then (d.kt l).orElse (fun _ => o) else o)

/-- `load(in, dir)` (DKtree.hpp:373-398) into the object `g`; a missing `0.kt` makes the archive throw.
A `max_r` outside the array would be an out-of-bounds access. -/
def load (S : Sizing) (g : DK K) (d : Dir K) : Res (DK K) :=
  match d.hdr with
  | none => .throws
  | some h => do
    let c ← C0.insertAll S (C0.blank h.c0nv h.c0max) h.edges
    if h.maxR < g.ks.length then .ok ⟨h.maxR, h.nv, h.nTotal, c, readLevels d h.maxR g.ks⟩ else .ub

/-- `load(in, dir, true)`: afterwards `clean_serialize` empties the directory (DKtree.hpp:396-397, 434-439). -/
def loadClear (S : Sizing) (g : DK K) (d : Dir K) : Res (DK K × Dir K) := do
  let g' ← g.load S d
  .ok (g', Dir.empty K)

/-- The level loop of `operator==` (DKtree.hpp:408-415) over levels `0..max_r` of both graphs. -/
def levelsEq (E : K2Eq K) : List (Option K.T) → List (Option K.T) → Bool
  | some t :: as, some u :: bs => E.equal t u && levelsEq E as bs
  | none :: as, none :: bs => levelsEq E as bs
  | [], [] => true
  | _, _ => false

/-- `operator==` (DKtree.hpp:401-418). -/
noncomputable def eq (E : K2Eq K) (a b : DK K) : Res Bool := do
  let r ← a.c0.eq b.c0
  .ok (decide (a.maxR = b.maxR) && decide (a.nv = b.nv) && decide (a.nTotal = b.nTotal) && r &&
    levelsEq E (a.ks.take (a.maxR + 1)) (b.ks.take (a.maxR + 1)))

end DK
end DK2
