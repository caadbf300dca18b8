import Verif.DK
/-!
# Model of `DKtree_delay` (`include/dktree/DKtree_delay.hpp`)

The class has the members of `DKtree` (the fields of `DK`) and the state of a merge that is spread
over several `add_edge` calls.
-/

namespace DK2

/-- `DKtree_delay` (DKtree_delay.hpp:51-63, 90-93): `max_r`, `n_vertices`, `n_total_edges`, `C0`,
`k_collection` are in `g`; `ui`, `uprev`, `ufinal`, `tmp` are `union_i`, `union_prev`, `union_final`,
`tmp`.  Simplified as `DK`. -/
structure DKD (K : K2Impl) where
  g : DK K
  ui : Nat
  uprev : Nat
  ufinal : Nat
  tmp : Option K.T

namespace DKD

variable {K : K2Impl}

/-- The object built by `DKtree_delay(n_vertices)` (DKtree_delay.hpp:67-76, with the member
initialisers of 90-93) when the constructor returns. -/
def init (K : K2Impl) (S : Sizing) (n : Nat) : DKD K := ⟨DK.init K S n, 0, RS, 1, none⟩

/-- `DKtree_delay(n_vertices)` (DKtree_delay.hpp:67-76); as `DK.create` for `n_vertices = 1`. -/
def create (K : K2Impl) (S : Sizing) (n : Nat) : Res (DKD K) :=
  if n = 1 then .ub else .ok (init K S n)

/-- `work_done()` (DKtree_delay.hpp:121-123). -/
def workDone (d : DKD K) : Bool := decide (d.ufinal < d.ui)

/-- The end of `union_delay` when no further level is occupied (DKtree_delay.hpp:111-118). -/
def unionMove (d : DKD K) : Res (DKD K) :=
  if d.uprev < RS then do
    let p ← rd d.g.ks d.uprev
    let ks ← wr d.g.ks d.ufinal p
    let ks ← wr ks d.uprev none
    .ok { d with g := { d.g with ks := ks }, ui := d.ui + 1 }
  else do
    let ks ← wr d.g.ks d.ufinal d.tmp
    .ok { d with g := { d.g with ks := ks }, tmp := none, ui := d.ui + 1 }

/-- The loop of `union_delay` (DKtree_delay.hpp:97-110): the first argument bounds the iterations
left, `union_final + 1 - union_i`.  `unionOp` of a null pointer is undefined. -/
def unionLoop : Nat → DKD K → Res (DKD K)
  | 0, d => d.unionMove
  | f + 1, d => do
    let o ← rd d.g.ks d.ui
    match o with
    | none => unionLoop f { d with ui := d.ui + 1 }
    | some t =>
      if d.uprev < RS then do
        let p ← rd d.g.ks d.uprev
        let u ← use p
        let ks ← wr d.g.ks d.ui (some (K.union t u))
        let ks ← wr ks d.uprev none
        .ok { d with g := { d.g with ks := ks }, uprev := d.ui, ui := d.ui + 1 }
      else do
        let u ← use d.tmp
        let ks ← wr d.g.ks d.ui (some (K.union t u))
        .ok { d with g := { d.g with ks := ks }, tmp := none, uprev := d.ui, ui := d.ui + 1 }

/-- `union_delay()` (DKtree_delay.hpp:96-119). -/
def unionDelay (d : DKD K) : Res (DKD K) := unionLoop (d.ufinal + 1 - d.ui) d

/-- `contains(x,y)` (DKtree_delay.hpp:184-201): the code of `DKtree::contains`; `tmp` is not read. -/
def contains (d : DKD K) (e : Edge) : Res Bool := d.g.contains e

/-- The flush branch of `add_edge` (DKtree_delay.hpp:139-169, 181), entered when no merge is
pending. -/
def flush (S : Sizing) (d : DKD K) (e : Edge) : Res (DKD K) :=
  match DK.selectLevel K S (max d.g.nv d.g.nTotal) d.g.ks 0 (S.maxsz (max d.g.nv d.g.nTotal) 0) with
  | none => .throws
  | some i => do
    let conv ← d.g.c0.converted
    let tmp := K.build (conv ++ [e]) d.g.nv
    let c ← d.g.c0.clean
    let d ← unionDelay ⟨{ d.g with maxR := max i d.g.maxR, c0 := c }, 0, RS, i, some tmp⟩
    .ok { d with g := { d.g with nTotal := d.g.nTotal + 1 } }

/-- The step at the start of `add_edge` (DKtree_delay.hpp:126-127). -/
def pre (d : DKD K) : Res (DKD K) := if d.workDone then .ok d else d.unionDelay

/-- `add_edge(x,y)` (DKtree_delay.hpp:125-182).  `nd` says whether the program is compiled with
`NDEBUG` (the repository's Makefile line 1 does): then `assert(false)` (179) does nothing and
`n_total_edges++` (181) follows. -/
def addEdge (nd : Bool) (S : Sizing) (d : DKD K) (e : Edge) : Res (DKD K) := do
  let d ← d.pre
  let b ← d.contains e
  if b then .ok d
  else if d.g.c0.size < S.maxsz (max d.g.nv d.g.nTotal) 0 then do
    let c ← d.g.c0.insert S e d.g.nTotal
    .ok { d with g := { d.g with c0 := c, nTotal := d.g.nTotal + 1 } }
  else if d.workDone then d.flush S e
  else if nd then .ok { d with g := { d.g with nTotal := d.g.nTotal + 1 } }
  else .abort

/-- The loop of `del_edge` (DKtree_delay.hpp:209-222): found, `n_total_marked`, new levels. -/
def eraseFirst (K : K2Impl) (e : Edge) : List (Option K.T) → Bool × Nat × List (Option K.T)
  | [] => (false, 0, [])
  | none :: ks => let r := eraseFirst K e ks; (r.1, r.2.1, none :: r.2.2)
  | some t :: ks =>
    let a := K.erase t e
    if a.1 then
      if K.marked a.2 = K.total a.2 then (true, 0, none :: ks)
      else (true, K.marked a.2, some a.2 :: ks)
    else let r := eraseFirst K e ks; (r.1, r.2.1, some a.2 :: r.2.2)

/-- The state in which `del_edge` evaluates the rebuild test (DKtree_delay.hpp:208-224), with
`n_total_marked`. -/
def afterErase (g : DK K) (e : Edge) : Nat × DK K :=
  let a := eraseFirst K e g.ks
  (a.2.1, { g with ks := a.2.2, nTotal := if a.1 then decr g.nTotal else g.nTotal })

/-- The first tree of the rebuild (DKtree_delay.hpp:234-250): an empty tree if the buffer is empty,
otherwise the buffer, which is then cleaned. -/
def rebuildTmp (g : DK K) : Res (K.T × C0) :=
  if g.c0.size = 0 then .ok (K.empty g.nv, g.c0)
  else do
    let conv ← g.c0.converted
    let c ← g.c0.clean
    .ok (K.build conv g.nv, c)

/-- The rebuild branch of `del_edge` (DKtree_delay.hpp:225-257).  If the level search ends with
`i = RS`, the merge loop reads `k_collection[RS]`. -/
def rebuild (S : Sizing) (g : DK K) : Res (DK K) :=
  match DK.selectLevel K S (max g.nv g.nTotal) g.ks 0 (S.maxsz (max g.nv g.nTotal) 0) with
  | none => .ub
  | some i => do
    let r ← rebuildTmp g
    let m := DK.mergeUpTo K (i + 1) r.1 g.ks
    .ok { g with c0 := r.2, ks := m.2.set i (some m.1) }

/-- `del_edge(x,y)` (DKtree_delay.hpp:203-260). -/
def delEdge (S : Sizing) (d : DKD K) (e : Edge) : Res (DKD K) := do
  let r ← d.g.c0.erase e
  if r.1 then .ok { d with g := { d.g with c0 := r.2, nTotal := decr d.g.nTotal } }
  else
    let a := afterErase { d.g with c0 := r.2 } e
    if S.rebuild a.1 a.2.nTotal then do
      let g' ← rebuild S a.2
      .ok { d with g := g' }
    else .ok { d with g := a.2 }

/-- `list_neighbour(x)` (DKtree_delay.hpp:262-282): the code of `DKtree::list_neighbour`. -/
def listNeighbour (d : DKD K) (x : Nat) : Res (List Nat) := d.g.listNeighbour x

/-- `get_number_edges()` (DKtree_delay.hpp:78-80). -/
def numberEdges (d : DKD K) : Nat := d.g.nTotal

/-- One user call. -/
def step (nd : Bool) (S : Sizing) (d : DKD K) : Op → Res (DKD K)
  | .add e => d.addEdge nd S e
  | .del e => d.delEdge S e

/-- A history of user calls from a given graph; an abnormal outcome ends it. -/
def runFrom (nd : Bool) (S : Sizing) : DKD K → List Op → Res (DKD K)
  | d, [] => .ok d
  | d, o :: os => do
    let d' ← d.step nd S o
    runFrom nd S d' os

/-- A history of user calls on a graph built by `DKtree_delay(n)`. -/
def run (nd : Bool) (K : K2Impl) (S : Sizing) (n : Nat) (ops : List Op) : Res (DKD K) := do
  let d ← create K S n
  runFrom nd S d ops

end DKD
end DK2
