import Verif.TextSpec
import Verif.Readers
import Verif.Ser
/-!
# The programs in `evaluation/` that build, query and prune graphs

Timing and printing of times are left out; the answers of the calls, which the programs drop, are returned.  The number of vertices
and of runs are given as numbers (`atoi` of the arguments is left out).  A file that cannot be opened counts as empty: the
programs then skip the loop.
-/

namespace DK2
namespace Tools
variable {K : K2Impl}

/-- The lines the loop `while (getline(test_case, line))` sees (evaluation/serialized/create.cpp:31): an unfinished last line is one
if it is not empty. -/
def getlines : List Char → List Char → List (List Char)
  | acc, [] => if acc = [] then [] else [acc.reverse]
  | acc, c :: cs => if c = '\n' then acc.reverse :: getlines [] cs else getlines (c :: acc) cs

/-- `boost::split(cont, str, boost::is_any_of(delims))` with one delimiter (create.cpp:8-11): adjacent delimiters enclose an empty
field, and an empty string is one empty field. -/
def split (d : Char) : List Char → List (List Char)
  | [] => [[]]
  | c :: cs =>
    if c = d then [] :: split d cs
    else
      match split d cs with
      | t :: ts => (c :: t) :: ts
      | [] => [[c]]

/-- White space for `strtol`. -/
def space (c : Char) : Bool := c = ' ' || c = '\t' || c = '\n' || c = '\r' || c.toNat = 11 || c.toNat = 12

/-- `std::stoi` (create.cpp:34-35): blanks, a sign, digits; what follows is ignored.  No digits, and numbers that are no `int`, throw. -/
def stoi (s : List Char) : Res Int :=
  let s := s.dropWhile space
  let neg := s.head? = some '-'
  let s := if s.head? = some '-' ∨ s.head? = some '+' then s.tail else s
  let ds := s.takeWhile Char.isDigit
  if ds = [] then .throws
  else
    let v : Int := ds.foldl (fun a c => 10 * a + (c.toNat - 48)) 0
    let v := if neg then -v else v
    if -2 ^ 31 ≤ v ∧ v < 2 ^ 31 then .ok v else .throws

/-- `(uint) stoi(…)`, `(etype) stoi(…)` (create.cpp:34-35, evaluation/contains/contains.cpp:78-79; Graph.hpp:19), and `(uint64_t) stoi(…)` passed as `etype`. -/
def vertex (s : List Char) : Res Nat := do
  let v ← stoi s
  .ok (v % 2 ^ 32).toNat

/-- `substrings[1]` and `substrings[2]` (create.cpp:34-35); an index past the end of the vector is undefined. -/
def edgeFields (ts : List (List Char)) : Res Edge := do
  let a ← rd ts 1
  let x ← vertex a
  let b ← rd ts 2
  let y ← vertex b
  .ok (x, y)

/-- The loop of `create` (create.cpp:31-39). -/
def createLoop (S : Sizing) : DK K → List (List Char) → Res (DK K)
  | g, [] => .ok g
  | g, l :: ls => do
    let e ← edgeFields (split ' ' l)
    let m ← rd (split ' ' l) 0
    if m = ['a'] then do
      let g ← g.addEdge S e
      createLoop S g ls
    else createLoop S g ls

/-- `create <dataset> <vertices> <folder>` (create.cpp:13-46). -/
def create (K : K2Impl) (S : Sizing) (n : Nat) (text : List Char) (d : Dir K) : Res (Dir K) := do
  let g ← DK.create K S n
  let g ← createLoop S g (getlines [] text)
  g.serialize d

/-- `build_edges` (evaluation/delay_add_edge/add.cpp:17-36). -/
def buildEdges : List (List Char) → Res (List Edge)
  | [] => .ok []
  | l :: ls => do
    let e ← edgeFields (split ' ' l)
    let m ← rd (split ' ' l) 0
    let es ← buildEdges ls
    .ok (if m = ['a'] then e :: es else es)

/-- One run of `add_mean <dataset> <vertices> <runs> 1` (evaluation/add_edge/add_mean.cpp:34-59): the mark is not looked at. -/
def addAll (S : Sizing) : DK K → List (List Char) → Res (DK K)
  | g, [] => .ok g
  | g, l :: ls => do
    let e ← edgeFields (split ' ' l)
    let g ← g.addEdge S e
    addAll S g ls

/-- One run of `add_mean` with version 1 (add_mean.cpp:34-59). -/
def addMean (K : K2Impl) (S : Sizing) (n : Nat) (text : List Char) : Res (DK K) := do
  let g ← DK.create K S n
  addAll S g (getlines [] text)

/-- `DKtree<2> tree; tree.load(ifs, folder, false)` (contains.cpp:66-68); the folder stays as it is. -/
def open_ (S : Sizing) (d : Dir K) : Res (DK K) := (DK.blank K).load S d

/-- One question for each line of a file (contains.cpp:75-88, list.cpp:42-51, neighbor_iterator.cpp:43-59). -/
def askLoop (parse : List Char → Res Query) (g : DK K) : List (List Char) → Res (List Ans)
  | [] => .ok []
  | l :: ls => do
    let q ← parse l
    let r ← g.ask q
    let rs ← askLoop parse g ls
    .ok (r :: rs)

/-- One run of `contains <file> <runs> <folder>` (contains.cpp:59-92). -/
def contains (S : Sizing) (d : Dir K) (text : List Char) : Res (List Ans) := do
  let g ← open_ S d
  askLoop (fun l => do
    let e ← edgeFields (split ' ' l)
    .ok (.contains e)) g (getlines [] text)

/-- `substrings[1]` of a line with tabs (evaluation/list_neighbor/list.cpp:43-45). -/
def vertexField (l : List Char) : Res Nat := do
  let a ← rd (split '\t' l) 1
  vertex a

/-- One run of `list <file> <runs> <folder>` (list.cpp:28-56), which is also `neighbor_iterator <file> <runs> <folder> 2`
(evaluation/neighbor_iterator/neighbor_iterator.cpp:53-58). -/
def list (S : Sizing) (d : Dir K) (text : List Char) : Res (List Ans) := do
  let g ← open_ S d
  askLoop (fun l => do
    let x ← vertexField l
    .ok (.neighbours x)) g (getlines [] text)

/-- One run of `neighbor_iterator <file> <runs> <folder> 1` (neighbor_iterator.cpp:29-64). -/
def neighborIterator (S : Sizing) (d : Dir K) (text : List Char) : Res (List Ans) := do
  let g ← open_ S d
  askLoop (fun l => do
    let x ← vertexField l
    .ok (.neighbourLoop x)) g (getlines [] text)

/-- `arcs` of `edge_iterator <runs> <folder>` (evaluation/edge_iterator/edge_iterator.cpp:23-29). -/
def arcs (S : Sizing) (d : Dir K) : Res Nat := do
  let g ← open_ S d
  let es ← g.iface.edges
  .ok es.length

/-- The loop of `delete` (evaluation/delete_edge/delete.cpp:40-50). -/
def deleteLoop (S : Sizing) : DK K → List (List Char) → Res (DK K)
  | g, [] => .ok g
  | g, l :: ls => do
    let e ← edgeFields (split ' ' l)
    let g ← g.delEdge S e
    deleteLoop S g ls

/-- One run of `delete <file> <runs> <folder>` (delete.cpp:23-55), and the graph it ends with. -/
def delete (S : Sizing) (d : Dir K) (text : List Char) : Res (DK K) := do
  let g ← open_ S d
  deleteLoop S g (getlines [] text)

/-- `runs` runs of a program (contains.cpp:59); each reads the files anew. -/
def repeated {β : Type} (runs : Nat) (run : Res β) : Res (List β) := (List.replicate runs ()).mapM fun _ => run

end Tools
end DK2
