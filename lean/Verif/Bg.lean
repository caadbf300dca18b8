import Verif.Delay
import Verif.Ser
import Verif.Conc
/-!
# Model of `DKtree_background` and `DKtree_background_wait`
(`include/dktree/DKtree_background.hpp`, `include/dktree/DKtree_background_wait.hpp`)

One caller thread and the worker thread started by the constructor share the object.  The parameter
`wv` selects the class: `false` for `DKtree_background`, `true` for `DKtree_background_wait`.  Line
numbers are those of `DKtree_background.hpp`; `w:` marks lines of `DKtree_background_wait.hpp`.

In `DKtree_background_wait` the flags are changed under a mutex and every change is followed by
`notify_all` (w:71-75, w:204-209), so blocking on the condition variable is modelled as a busy wait
(`CondVar.lean` models it step by step, C64 relates the two).
The flags of that class are global variables (w:35); here there is one object, two are treated in
`BgTwo.lean`.
-/

namespace DK2

/-- The plain (non-atomic) data members of the object that both threads may reach. -/
inductive BLoc where
  | c0 | nTotal | levels | maxR | conv | maxSb | maxRb | tmpEdge | bks
  deriving DecidableEq, Repr

/-- `DKtree_background` (85-102): `max_r`, `n_vertices`, `n_total_edges`, `C0`, `k_collection` are in `g`;
`tmp_edge`, `k_collection_background`, `max_r_background`, `max_size_background`, `converted`,
`needs_work`, `run`.  A default-constructed `k_tree()` in `k_collection_background` is `none`.
`tmp_i` is never used.  Simplified as `DK`; assigning a `k_tree` copies it deeply (contract). -/
structure BG (K : K2Impl) where
  g : DK K
  tmpEdge : Edge
  bks : List (Option K.T)
  maxRb : Nat
  maxSb : Nat
  conv : List Edge
  needs : Bool
  run : Bool

/-- Where the worker is in `union_collection` (34-63; w:39-79).
* `top`   – about to read `run` (35; w:40)
* `test`  – about to read `needs_work` (36; w:41-47)
* `build` – lines 38-39
* `search tmp` – lines 41-51
* `merge tmp i j` – iteration `j` of the loop 53-58
* `store tmp i` – line 59
* `finish` – line 60
* `stopped` – the function has returned -/
inductive WPC (T : Type) where
  | top
  | test
  | build
  | search (tmp : T)
  | merge (tmp : T) (i j : Nat)
  | store (tmp : T) (i : Nat)
  | finish
  | stopped
  deriving DecidableEq, Repr

namespace BG

variable {K : K2Impl}

/-- One step of `union_collection` (34-63; w:39-79).  The exception of line 50 leaves the thread
function: the program is terminated. -/
def wstep (S : Sizing) (s : BG K) : WPC K.T → Res (BG K × WPC K.T)
  | .top => .ok (s, if s.run then .test else .stopped)
  | .test => .ok (s, if s.needs then .build else .top)
  | .build => .ok ({ s with conv := [] }, .search (K.build s.conv s.g.nv))
  | .search tmp =>
    match DK.selectLevel K S s.maxSb s.g.ks 0 (S.maxsz s.maxSb 0) with
    | none => .throws
    | some i => .ok ({ s with g := { s.g with maxR := max i s.g.maxR } }, .merge tmp i 0)
  | .merge tmp i j =>
    if j ≤ i then
      match s.g.ks[j]? with
      | none => .ub
      | some none => .ok (s, .merge tmp i (j + 1))
      | some (some t) => .ok ({ s with g := { s.g with ks := s.g.ks.set j none } },
          .merge (K.union tmp t) i (j + 1))
    else .ok (s, .store tmp i)
  | .store tmp i => do
    let ks ← wr s.g.ks i (some tmp)
    .ok ({ s with g := { s.g with ks := ks } }, .finish)
  | .finish => .ok ({ s with needs := false }, .top)
  | .stopped => .ok (s, .stopped)

/-- The plain members touched by the next worker step.  (`n_vertices`, read in line 38, is written only
before the thread starts.) -/
def wacc : WPC K.T → Acc BLoc
  | .top => .none
  | .test => .none
  | .build => ⟨[.conv], [.conv]⟩
  | .search _ => ⟨[.maxSb, .levels, .maxR], [.maxR]⟩
  | .merge _ _ _ => ⟨[.levels], [.levels]⟩
  | .store _ _ => ⟨[], [.levels]⟩
  | .finish => .none
  | .stopped => .none

/-- The worker thread. -/
def worker (K : K2Impl) (S : Sizing) : Worker (BG K) (WPC K.T) BLoc := ⟨wstep S, wacc⟩

/-- Programs of the caller. -/
abbrev BProg (K : K2Impl) (α : Type) := Prog (BG K) BLoc α

/-- The object built by the constructor (111-125; w:137-154).  Only `DKtree_background` doubles the
buffer (113). -/
def init (K : K2Impl) (wv : Bool) (S : Sizing) (n : Nat) : BG K :=
  ⟨{ DK.init K S n with c0 := if wv then C0.new S n else (C0.new S n).resize ((C0.new S n).maxEdges * 2) },
    (0, 0), List.replicate RS none, 0, 0, [], false, true⟩

/-- Reading `needs_work` (184, 148, 248; w:220, w:289). -/
def readNeeds : BProg K Bool := .read .none (fun s => .ok s.needs)

/-- The look-up in the snapshot (185-189; w:221-225). -/
def snapContains (s : BG K) (e : Edge) : Bool :=
  if s.tmpEdge = e then true else DK.treesContain K e (s.bks.take (s.maxRb + 1))

/-- `contains(x,y)` after the buffer look-up (184-195; w:220-231). -/
def containsTrees (e : Edge) : BProg K Bool :=
  readNeeds.bind fun nd =>
    if nd then .read ⟨[.tmpEdge, .bks, .maxRb], []⟩ (fun s => .ok (s.snapContains e))
    else .read ⟨[.levels, .maxR], []⟩ (fun s => .ok (DK.treesContain K e (s.g.ks.take (s.g.maxR + 1))))

/-- `contains(x,y)` (179-196; w:215-232). -/
def contains (e : Edge) : BProg K Bool :=
  (Prog.read ⟨[.c0], []⟩ (fun s => s.g.c0.contains e)).bind fun b =>
    if b then .ret true else containsTrees e

/-- The test of line 143 (w:172): `C0.size() < MAXSZ(max(n_vertices, n_total_edges), 0)`. -/
def fits (S : Sizing) (s : BG K) : Bool := decide (s.g.c0.size < S.maxsz (max s.g.nv s.g.nTotal) 0)

/-- `C0.insert(x, y, n_total_edges); ++n_total_edges` (144-145; w:173-174). -/
def insert (S : Sizing) (e : Edge) (s : BG K) : Res (BG K) := do
  let c ← s.g.c0.insert S e s.g.nTotal
  .ok { s with g := { s.g with c0 := c, nTotal := s.g.nTotal + 1 } }

/-- Insertion while a merge is pending (149-154). -/
def insertPending (S : Sizing) (e : Edge) (s : BG K) : Res (BG K) :=
  insert S e { s with g := { s.g with
    c0 := if s.g.c0.size = s.g.c0.maxEdges then s.g.c0.resize (s.g.c0.maxEdges + 10) else s.g.c0 } }

/-- Lines 156-172 (w:186-202): hand the buffer and `(x,y)` over, and copy the levels. -/
def prepare (e : Edge) (s : BG K) : Res (BG K) := do
  let c ← s.g.c0.converted
  .ok { s with conv := s.conv ++ c ++ [e], maxSb := max s.g.nv s.g.nTotal, maxRb := s.g.maxR,
               tmpEdge := e, bks := s.g.ks }

/-- Lines 175-176 (w:211-212). -/
def cleanup (s : BG K) : Res (BG K) := do
  let c ← s.g.c0.clean
  .ok { s with g := { s.g with c0 := c, nTotal := s.g.nTotal + 1 } }

/-- Lines 156-176 (w:186-212). -/
def flush (e : Edge) : BProg K Unit :=
  (Prog.modify ⟨[.c0, .levels, .maxR, .nTotal], [.conv, .maxSb, .maxRb, .tmpEdge, .bks]⟩ (prepare e)).bind
    fun _ => (Prog.modify .none (fun s => .ok { s with needs := true })).bind
    fun _ => .modify ⟨[.c0, .nTotal], [.c0, .nTotal]⟩ cleanup

/-- `add_edge(x,y)` when the buffer is full (148-176; w:179-212). -/
def addFull (wv : Bool) (S : Sizing) (e : Edge) : BProg K Unit :=
  if wv then .wait (fun s => !s.needs) (flush e)
  else readNeeds.bind fun nd =>
    if nd then .modify ⟨[.c0, .nTotal], [.c0, .nTotal]⟩ (insertPending S e) else flush e

/-- `add_edge(x,y)` (139-177; w:168-213). -/
def addEdge (wv : Bool) (S : Sizing) (e : Edge) : BProg K Unit :=
  (contains e).bind fun b =>
    if b then .ret ()
    else (Prog.read ⟨[.c0, .nTotal], []⟩ (fun s => .ok (s.fits S))).bind fun f =>
      if f then .modify ⟨[.c0, .nTotal], [.c0, .nTotal]⟩ (insert S e) else addFull wv S e

/-- `add_edge` on every edge of a sequence: the callbacks of `edge_it` (232-239; w:273-280). -/
def addAll (wv : Bool) (S : Sizing) : List Edge → BProg K Unit
  | [] => .ret ()
  | e :: es => (addEdge wv S e).bind fun _ => addAll wv S es

/-- Lines 199-200 (w:235-236): `C0.erase`, and on success `n_total_edges--`. -/
def eraseBuf (e : Edge) (s : BG K) : Res (BG K × Bool) := do
  let r ← s.g.c0.erase e
  .ok ({ s with g := { s.g with c0 := r.2, nTotal := if r.1 then decr s.g.nTotal else s.g.nTotal } }, r.1)

/-- Lines 204-230 (w:245-271): erase from the first level holding the edge (`DKD.afterErase`, the same
loop), evaluate the rebuild test, and on success take the levels `0..max_r` out; the result is the
sequence of edges that will be inserted again (232-238). -/
def eraseLevels (S : Sizing) (e : Edge) (s : BG K) : Res (BG K × List Edge) :=
  let a := DKD.afterErase s.g e
  if S.rebuild a.1 a.2.nTotal then
    .ok ({ s with g := { a.2 with
        ks := a.2.ks.mapIdx (fun i o => if i ≤ a.2.maxR then none else o),
        maxR := 0, nTotal := a.2.c0.size } },
      (a.2.ks.take (a.2.maxR + 1)).flatMap (fun o => o.elim [] K.edges))
  else .ok ({ s with g := a.2 }, [])

/-- `del_edge(x,y)` (198-242; w:234-283). -/
def delEdge (wv : Bool) (S : Sizing) (e : Edge) : BProg K Unit :=
  (Prog.act ⟨[.c0, .nTotal], [.c0, .nTotal]⟩ (eraseBuf e) .ret).bind fun b =>
    if b then .ret ()
    else .wait (fun s => !s.needs)
      ((Prog.act ⟨[.levels, .maxR, .nTotal, .c0], [.levels, .maxR, .nTotal]⟩ (eraseLevels S e) .ret).bind
        (addAll wv S))

/-- The look-up in the snapshot by `list_neighbour` (249-255; w:290-296); the loop bound is `max_r`, not
`max_r_background`. -/
def snapNeigh (s : BG K) (x : Nat) : List Nat :=
  (if s.tmpEdge.1 = x then [s.tmpEdge.2] else []) ++ DK.treesNeigh K x (s.bks.take (s.g.maxR + 1))

/-- `list_neighbour(x)` (244-264; w:285-305). -/
def listNeighbour (x : Nat) : BProg K (List Nat) :=
  (Prog.read ⟨[.c0], []⟩ (fun s => s.g.c0.listNeighbours x)).bind fun l =>
    readNeeds.bind fun nd =>
      if nd then (Prog.read ⟨[.tmpEdge, .bks, .maxR], []⟩ (fun s => .ok (s.snapNeigh x))).bind
        fun r => .ret (l ++ r)
      else (Prog.read ⟨[.levels, .maxR], []⟩
          (fun s => .ok (DK.treesNeigh K x (s.g.ks.take (s.g.maxR + 1))))).bind
        fun r => .ret (l ++ r)

/-- `get_number_edges()` (127-129; w:156-158). -/
def numberEdges (s : BG K) : Nat := s.g.nTotal

/-- One user call that modifies the graph. -/
def call (wv : Bool) (S : Sizing) : Op → BProg K Unit
  | .add e => addEdge wv S e
  | .del e => delEdge wv S e

/-- `Reach wv K S n ops s w`: on some schedule, after the constructor and the calls `ops` have returned,
the object is `s` and the worker is at `w`.  For `n = 1` the constructor is undefined, as `DK.create`. -/
inductive Reach (wv : Bool) (K : K2Impl) (S : Sizing) (n : Nat) : List Op → BG K → WPC K.T → Prop where
  | start : n ≠ 1 → Reach wv K S n [] (init K wv S n) .top
  | work {ops : List Op} {s s' : BG K} {w w' : WPC K.T} : Reach wv K S n ops s w →
      wstep S s w = .ok (s', w') → Reach wv K S n ops s' w'
  | call {ops : List Op} {o : Op} {s s' : BG K} {w w' : WPC K.T} : Reach wv K S n ops s w →
      Exec (worker K S) (call wv S o) s w (.ret ()) s' w' → Reach wv K S n (ops ++ [o]) s' w'

/-- During the call `o` after `ops`: some schedule brings the call to `p`, the object to `s` and the worker
to `w`. -/
def During (wv : Bool) (K : K2Impl) (S : Sizing) (n : Nat) (ops : List Op) (o : Op) (p : BProg K Unit)
    (s : BG K) (w : WPC K.T) : Prop :=
  ∃ s0 w0, Reach wv K S n ops s0 w0 ∧ Exec (worker K S) (call wv S o) s0 w0 p s w

end BG
end DK2
