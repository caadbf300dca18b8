import Verif.AlgoSpec
import Mathlib.Data.Finset.Card
/-!
# Specification of a whole program that builds, copies, queries, saves and loads graphs (C86)

Nothing here refers to the model of the code.  A graph is a number of vertices and a finite set of edges; variables
and directories hold such graphs; a program is a sequence of commands.
-/

namespace DK2

/-- A graph as the user thinks of it. -/
structure SGraph where
  n : Nat
  E : Finset Edge
  deriving DecidableEq

/-- Questions about a graph. -/
inductive Query where
  | contains (e : Edge)
  | numberEdges
  | numberNodes
  /-- `list_neighbour(x)` -/
  | neighbours (x : Nat)
  /-- the loop from `neighbour_begin(x)` to `neighbour_end()` -/
  | neighbourLoop (x : Nat)
  /-- the loop from `edge_begin()` to `edge_end()`, by value -/
  | edgeLoop
  /-- the loop from `node_begin()` to `node_end()` -/
  | nodeLoop
  | bfs (root : Nat)
  | dfs (root : Nat)
  /-- `count_triangles_dummy_hash` -/
  | triangles
  deriving DecidableEq

/-- What a command returns. -/
inductive Ans where
  | unit
  | bool (b : Bool)
  | num (m : Int)
  | nodes (l : List Nat)
  | edges (l : List Edge)
  | edge (o : Option Edge)
  deriving DecidableEq

/-- The arguments of a question name vertices of the graph. -/
def Query.Legal (n : Nat) : Query → Prop
  | .contains e => InRange n e
  | .neighbours x | .neighbourLoop x | .bfs x | .dfs x => x < n
  | _ => True

/-- The right answers to a question about a graph.  Lists of neighbours and of edges have no repetition and come in any
order; a BFS lists the reachable vertices, root first, by distance; a triangle is counted once per vertex of it, and
the count is reduced to the range of `int`. -/
def Query.Right (g : SGraph) : Query → Ans → Prop
  | .contains e, .bool b => (b = true ↔ e ∈ g.E)
  | .numberEdges, .num m => m = g.E.card
  | .numberNodes, .num m => m = g.n
  | .neighbours x, .nodes l => l.Nodup ∧ ∀ y, y ∈ l ↔ (x, y) ∈ g.E
  | .neighbourLoop x, .nodes l => l.Nodup ∧ ∀ y, y ∈ l ↔ (x, y) ∈ g.E
  | .edgeLoop, .edges l => l.Nodup ∧ ∀ e, e ∈ l ↔ e ∈ g.E
  | .nodeLoop, .nodes l => l = List.range g.n
  | .bfs r, .nodes l => l.Nodup ∧ l.head? = some r ∧ (∀ v, v ∈ l ↔ Reach (· ∈ g.E) r v) ∧
      l.Pairwise (NotFarther (· ∈ g.E) r)
  | .dfs r, .nodes l => l.Nodup ∧ l.head? = some r ∧ ∀ v, v ∈ l ↔ Reach (· ∈ g.E) r v
  | .triangles, .num m => -2 ^ 31 ≤ m ∧ m < 2 ^ 31 ∧
      (2 ^ 32 : Int) ∣ m - (countTriples g.n (DirTriangle (· ∈ g.E)) : Nat)
  | _, _ => False

/-- One statement of the program.  Variables, iterators and directories are numbered. -/
inductive Cmd where
  /-- `x = DKtree(n)` -/
  | make (x n : Nat)
  /-- `x = y`, or `DKtree x(y)` -/
  | copy (x y : Nat)
  | add (x : Nat) (e : Edge)
  | ask (x : Nat) (q : Query)
  /-- `auto i = x.edge_begin()` -/
  | begin (i x : Nat)
  /-- `if (i != x.edge_end()) { e = *i; ++i; }` -/
  | fetch (i : Nat)
  /-- `x.serialize(…, d)` -/
  | save (x d : Nat)
  /-- `DKtree x; x.load(…, d, clear)` -/
  | load (x d : Nat) (clear : Bool)

/-- What the variables and the directories hold (`none`: not constructed, empty directory), and the edges an iterator
has still to visit. -/
structure SState where
  obj : Nat → Option SGraph
  it : Nat → Option (Finset Edge)
  dir : Nat → Option SGraph

/-- Before the program: no variable, no iterator, empty directories. -/
def SState.init : SState := ⟨fun _ => none, fun _ => none, fun _ => none⟩

/-- What the user may write: graphs of 2 to 9999999 vertices, constructed variables and iterators, vertices of the graph; a
graph is saved into an empty directory and loaded from one that holds a graph. -/
def SState.Legal (s : SState) : Cmd → Prop
  | .make _ n => 2 ≤ n ∧ n ≤ 9999999
  | .copy _ y => (s.obj y).isSome
  | .add x e => ∃ g, s.obj x = some g ∧ InRange g.n e
  | .ask x q => ∃ g, s.obj x = some g ∧ q.Legal g.n
  | .begin _ x => (s.obj x).isSome
  | .fetch i => (s.it i).isSome
  | .save x d => (s.obj x).isSome ∧ s.dir d = none
  | .load _ d _ => (s.dir d).isSome

/-- What the user expects the statement to do, given its answer.  An iterator visits the edges that were in the graph when it was
made, whatever is done to the graph afterwards. -/
def SState.next (s : SState) : Cmd → Ans → SState
  | .make x n, _ => { s with obj := Function.update s.obj x (some ⟨n, ∅⟩) }
  | .copy x y, _ => { s with obj := Function.update s.obj x (s.obj y) }
  | .add x e, _ => { s with obj := Function.update s.obj x ((s.obj x).map fun g => ⟨g.n, insert e g.E⟩) }
  | .ask _ _, _ => s
  | .begin i x, _ => { s with it := Function.update s.it i ((s.obj x).map SGraph.E) }
  | .fetch i, .edge (some e) => { s with it := Function.update s.it i ((s.it i).map fun R => R.erase e) }
  | .fetch _, _ => s
  | .save x d, _ => { s with dir := Function.update s.dir d (s.obj x) }
  | .load x d clear, _ =>
    { s with obj := Function.update s.obj x (s.dir d), dir := if clear then Function.update s.dir d none else s.dir }

/-- The answers the user expects; an iterator gives one of the edges it has still to visit, if any. -/
def SState.Right (s : SState) : Cmd → Ans → Prop
  | .ask x q, a => ∃ g, s.obj x = some g ∧ q.Right g a
  | .fetch i, .edge none => s.it i = some ∅
  | .fetch i, .edge (some e) => ∃ R, s.it i = some R ∧ e ∈ R
  | .fetch _, _ => False
  | _, a => a = .unit

/-- A program that chooses each statement from the answers so far.  (A program that never ends is covered by its
prefixes.) -/
inductive UProg where
  | done
  | cmd (c : Cmd) (k : Ans → UProg)

/-- As long as it gets right answers, the program only executes legal statements. -/
def UProg.Legal : SState → UProg → Prop
  | _, .done => True
  | s, .cmd c k => s.Legal c ∧ ∀ a, s.Right c a → (k a).Legal (s.next c a)

/-- The answers of a run are the expected ones. -/
def SState.RightAll : SState → List (Cmd × Ans) → Prop
  | _, [] => True
  | s, p :: ps => s.Right p.1 p.2 ∧ (s.next p.1 p.2).RightAll ps

/-- The state after a run. -/
def SState.run (s : SState) (ps : List (Cmd × Ans)) : SState := ps.foldl (fun s p => s.next p.1 p.2) s

/-- The program of a list of statements. -/
def UProg.ofList : List Cmd → UProg
  | [] => .done
  | c :: cs => .cmd c (fun _ => UProg.ofList cs)

end DK2
