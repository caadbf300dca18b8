# Formal model of jhrotko/dynamic_k2tree: design

The model is in `lean/Verif`. Properties are in `properties.jsonl`, the theorems for each in `MANIFEST.json`.
When the code does not have a property, `Cnn_Full` is its statement, `Cnn_refuted` proves the negation with a
concrete history or schedule, and `Cnn_..._partial` says what does hold.

## Modules

| module | what | role |
|---|---|---|
| `Res` | outcomes of a C++ call: normal, exception, undefined behaviour, failed assert, endless loop | base |
| `Spec`, `AlgoSpec` | sets of edges, histories; reachability, triangles | specification, no model code |
| `Sizing`, `RealSizing`, `RealTab`, `Congr` | `utils.hpp` | thresholds; `RealTab`, `Congr` only evaluate them |
| `K2` | contract of the external `sdsl::k2_tree`, two reference trees | assumption |
| `C0`, `C0Proofs`, `PropsC0` | `Container0.hpp` | C19–C21 |
| `EHT` | `EdgeHashTable.hpp`, 32-bit words, chained buckets | C18 |
| `DK`, `DKProofs`, `DKMore`, `Weak`, `Slots`, `Hist`, `Witness`, `PropsGraph`, `PropsGraph2`, `PropsGraph3` | `DKtree.hpp` | C01–C08, C12–C17, C42–C45 |
| `Alias`, `PropsAlias`, `AliasIter` | `DKtree.hpp` and the edge iterator with a heap of shared trees | C60–C62 |
| `Iter`, `IterProofs`, `PropsIter` | the four iterator headers | C09–C11 |
| `NbLoop`, `PropsNbLoop` | the neighbour iterator while the loop body changes the graph | C70, C71 |
| `Cost`, `PropsCost` | `add_edge` of `DKtree` with a cost counter | C72 |
| `Ser`, `SerProofs`, `PropsSer` | save, load, serialize, `operator==` | C22–C24, C46, C47 |
| `Crash`, `PropsCrash` | `serialize` and the clearing `load` file by file, interrupted anywhere | C73–C75 |
| `Algo`, `AlgoProofs`, `TriProofs`, `PRProofs`, `PropsAlgo` | `Algorithm.hpp` | C25–C31 |
| `Delay`, `DelayProofs`, `PropsDelay` | `DKtree_delay.hpp` | C32–C35, C48–C50 |
| `DelayCost` | unions and edges written by one `add_edge` of `DKtree_delay` | C76 |
| `VarAlgo` | iterators and `Algorithm` on `DKtree_delay` | C63 |
| `Bits`, `BitsProofs`, `Union`, `UnionProofs`, `UnionProofs2`, `PropsUnion`, `UnionOver` | `union_support.hpp` on bit vectors | C40, C83 |
| `Munro*`, `PropsMunro` | `DKtree_delay_.hpp` | C41, C51–C55 |
| `MunroLate`, `MunroFast`, `Tab128`, `PropsMunroLate` | merges of `DKtree_delay_munro` that are not finished in time | C54, C69 |
| `AliasDelay`, `DelayFam`, `PropsAliasDelay` | `DKtree_delay.hpp` with a heap of shared trees: several graphs, copies | C78, C79 |
| `AliasMunro`, `PropsAliasMunro` | `DKtree_delay_munro` with a heap of shared trees, and the pointer of its `union_support` to an array: copies | C80 |
| `ProgSpec`, `Prog`, `PropsProg` | adaptive programs over many `DKtree` objects, iterators and directories | C86 |
| `WinSpec`, `Prune`, `PropsPrune` | `DKtree.hpp`: histories with rare deletions | C87, C88 |
| `PruneDelay`, `PropsPruneDelay` | `DKtree_delay.hpp`: histories with rare deletions | C89, C90 |
| `EdgeDel`, `PropsEdgeDel` | the edge iterator while the loop body adds and deletes, with the assertion of `operator++` | C92 |
| `Restart` | `serialize` and `load` between calls | C93 |
| `PRConv`, `PropsRank` | `pageRank` of `Algorithm.hpp`, component by component | C94 |
| `Cluster`, `ClusterF` | `clustering_coefficient` of `Algorithm.hpp`, exact arithmetic and `float` | C96 |
| `PRFloat`, `PRRound`, `IEEE`, `PropsRankF` | `pageRank` of `Algorithm.hpp` in rounding arithmetic; IEEE-754 rounding on ℚ | C97 |
| `Machine`, `PropsMachine` | `pageRank` of `Algorithm.hpp` on doubles with infinities and NaN | C98 |
| `IterOps`, `PropsIterOps` | `operator++(int)`, `operator=` and nested use of the three iterators | C99 |
| `AlgoCopy` | the graph member of `Algorithm` (`Algorithm.hpp:18-25`) on the heap of shared trees | C95 |
| `FloatSizing`, `Calib`, `PropsFloat`, `PropsFloatBg` | `utils.hpp`: the thresholds with rounding | C91 |
| `MunroOver` | histories of `DKtree_delay_munro` beyond the 32-bit size estimate | C85 |
| `PropsFamMunro` | programs with any number of `DKtree_delay_munro` graphs | C84 |
| `PropsAgree` | the four classes against each other | C81 |
| `Catch` | programs that catch the exception of `add_edge` | C82 |
| `MunroCost` | merge work and copies of one `add_edge` of `DKtree_delay_munro` | C77 |
| `Conc`, `Bg`, `BgProofs`, `BgCall`, `BgDel`, `BgHist`, `BgLive`, `BgFoot`, `PropsBg`, `BgMore`, `BgNeigh` | `DKtree_background.hpp`, `DKtree_background_wait.hpp` | C36–C38, C56–C59 |
| `CondVar`, `CondVarLive`, `PropsCondVar` | mutex and condition variable of `DKtree_background_wait`, step by step | C64 |
| `BgIter`, `PropsBgIter` | iterators and `Algorithm` on the background variants | C65 |
| `Marks`, `BgFew`, `PropsBgFew` | erased edges counted level by level; background variants with rare deletions | C100, C101 |
| `ConcMany`, `ReadSpec`, `Readers`, `PropsReaders` | several threads on one object; the members and tree iterators each question touches | C102 |
| `PropsBgReaders` | several reading threads and the worker of a background graph | C103 |
| `CopySpec`, `OwnCopies`, `PropsCopies` | threads that each own a copy of a `DKtree`; the copies share trees | C104 |
| `TextSpec`, `Tools`, `PropsTools`, `PropsToolsAll` | the programs in `evaluation/`: `getline`, `split`, `stoi` and their loops | C105–C108 |
| `PropsFloatCost`, `PropsWeight` | C72 with computed thresholds; the counters of C72, C76 and C109 tied to the program itself by trees that carry their cost | C72, C76, C109 |
| `Reorg`, `ReorgWork`, `PropsReorg` | the sizes of all reorganisations of a history, against its deletions; what they cost; two in a row | C110, C111 |
| `MunroIter`, `PropsMunroIter` | iterators and `Algorithm` on `DKtree_delay_munro` | C67 |
| `MunroSer`, `PropsMunroSer` | `serialize`, `load`, `operator==` of `DKtree_delay_munro` | C68 |
| `BitK2`, `PropsBit` | bit-encoded trees with a clearing `erase` as an instance of the contract `K2Impl.Lawful` | C66 |
| `BgTwo` | two `DKtree_background_wait` objects | C39 |

## Modelling conventions

* Undefined behaviour, exceptions, failed asserts and endless loops are distinct outcomes (`Res`). Vector and array
  accesses are checked; reading an uninitialised value and dereferencing null are undefined.
* `unordered_map` is a function from keys to options (`C0`); `EHT` models the table itself.
* `etype`, `uint`, `uint64_t` are natural numbers, with decrement of 0 treated as in `DK.decr`. Fixed widths are kept
  where a property is about them: the hash function (C18), the `int` fields of the iterators (C09, C11), the 32-bit size
  estimate of `union_support` (C40, C41, C51, C83, C85). Theorems about `DKtree_delay_munro` assume `Ctx P n N` (at most `N` insertions, which
  the estimate covers) where they claim that a call returns, and the weaker `Cond P n N` where they are about runs that return; for
  `k` = 2, 4, 8, 16 `Cond` holds for every `N` (`real_cond_pow`).
* `S : Sizing` stands for the two threshold formulas. Theorems hold for every `S` unless they say `realSizing`, the
  formulas read over the real numbers (the inf/NaN cases for 0, 1, 2 edges are
  spelled out), or `floatSizing A`, the formulas rounded by a floating-point library `A` (C91). Some totality theorems need `S.Top`, proved of `realSizing`.
* `K : K2Impl` stands for `sdsl::k2_tree`. Theorems hold for every lawful `K`; witnesses use `refK2`, proved lawful.
* `assert` is modelled with and without `NDEBUG` where the class relies on it (`Delay`, `Munro`).

## How each property is proved

* C01, C03, C05–C07, C15, C16, C44, C45: representation invariant, induction over histories, refinement to a set of edges. C45 has an exact failure condition, C16 an exact description of the state after a reorganisation.
  The reorganisation in `del_edge` breaks the full statements (witnesses).
* C02, C14: insertion histories with the real thresholds return normally and are exact.
* C04, C08, C17, C43: state equalities; C43 allows any behaviour of `adj_forced` its documentation permits.
* C12, C13, C42: which states make `add_edge` fail, exactly; witnesses reach them.
* C09–C11: each loop over an iterator equals the enumeration; witnesses for the edge iterator.
* C70, C71: an insertion that does not flush keeps every position of the iterator (`NbAt.inserts`); an erased node keeps its link to
  the rest of the chain (`C0.At.erase_next`); witnesses for the other cases.
* C76: counted versions of the model functions, proved equal to them; the trees written by one call hold disjoint edges.
* C77: the budget `iteration_size` bounds a whole call of `unionOperation` (with its recursion); the budget is the bits of
  the trees divided by the batch, which is as large as the buffer; leaves count the edges from below.
* C78, C79: `DKtree_delay` is modelled a second time with pointers into a heap of trees (`HD`), proved to behave as the value model
  when no tree is shared (`HD.step_rel`: same outcome, frame: other trees untouched, new pointers are fresh). C79 follows for every
  interleaving. C78 is refuted by running the model on 3 vertices; for programs of copies and insertions an invariant over the whole
  heap (every tree only holds inserted edges, trees only grow) gives the positive part.
* C80: the same for `DKtree_delay_munro` (`HM`, `MWorld`), where a merge only changes its own `tmp` in place: invariant `Apart` (nobody
  else points to the `tmp` of a pending merge, which works on the object's own array), preserved by every call and by copying an idle
  object; every object stays in the state its own calls lead to (`Tracks`). Refuted by running the model for a copy made in mid-merge.
* C84: the invariant `Apart` of C80 is kept by constructing a further object, so the argument of C80 covers programs with any number of
  graphs (`FTracks`).
* C81: each class refines the same edge set (exactness theorems of C01/C32/C36/C41), so any two agree.
* C82: `add_edge` with the object left at the throw (`addEdgeX`, proved equal to `add_edge`); induction over histories with caught
  exceptions; C45 gives that nothing else throws.
* C72: potential function (an edge counts once per level above its own); neighbouring thresholds differ by at most
  `2·(log2 N)^(1/4)` (`realSizing_ratio`).
* C60–C62: the level array holds pointers into a heap; every call is related to the value model of `DK` (`step_rel`), so two objects
  with disjoint pointers, or shared trees that are only read, cannot influence each other.
* C18: chained hash table refined to a map, for every table size and hash values; C19–C21: doubly linked lists refined to a list of
  live edges in insertion order.
* C22–C24, C46, C47: a directory is a map from file names to contents. C73–C75: a call is a list of file writes or removals
  (`fileOps_serialize` proves the list equal to the whole call); a crash leaves a prefix of the writes, possibly with the next file cut
  off, or any subset of the removals. A cut-off `0.kt` is assumed to be rejected by Boost.
* C25–C27: loop invariants of the searches; C28–C30: counting lemmas; C31: sum of the vector over any ordered field.
* C32–C35, C48–C50: invariant of the partial merge, induction over histories.
* C63: any state that represents a set of edges, without empty trees, shows that set through iterators and `Algorithm`; `DKtree_delay` keeps it so.
* C65: no level ever holds an empty tree (a second invariant, relative to that of C36); with nothing pending a background graph shows `Algorithm` the
  same as a `DKtree` with the same contents, so C63's argument applies; witnesses for pending merges.
* C66: the encoding `BT.encode` (C40) read by `BT.adj` gives membership; clearing the leaf bit is the encoding of the set without the
  edge (`lBits_without`); every law of `K2Impl.Lawful` follows.
* C40: the bits written so far are the encoding of the union so far (simulation, level by level), any number of trees. C83: a merge whose result does not
  fit reaches the first group of children for which there is no room and writes one of them past the end (`children_over`).
* C41, C51–C55: the invariant of C40 carried through histories; C54 by a step budget. C54 is refuted for `k = 2` by a
  435-edge history: its levels are followed on edge lists (`plan`) and its merge steps counted (`fwork`), both by kernel evaluation.
* C86: specification in `ProgSpec` (finite sets of edges, program trees). Forward simulation (`PState.Sim`): each object owns its pointers and its
  value represents the set (`Holds`), a directory holds what `serialize` writes for such a value, an iterator has a list of edges left whose
  drive is fixed; insertions and loads only allocate (`Keep`), so the other objects and iterators keep their values.
* C87, C88: specification in `WinSpec` (a list of present edges, the log of insertions, the number of deletions). Invariant by induction over the
  history: the edges are right (`Exact`), the levels hold at most as many marked edges as were deleted, the buffer has no erased slot and holds a
  prefix of the insertion log. The threshold: `log2 log2 m ≤ 6` for `m ≤ 2^64`, so `rebuild k m` is false when `6k ≤ m`; the top level has room
  because few edges are marked. Extra assumption `MarksOne`: `erase` marks one edge when it returns true and none otherwise (proved of the
  reference trees and of the bit-encoded trees). C88 is the same induction without the buffer part.
* C89, C90: the same specification for `DKtree_delay`. The invariant adds: while a merge is pending, the tree it reads next holds an edge
  that was inserted at most `8 - (steps left)` insertions ago (`Carries`, kept by `unionLoop_few`), so no deletion of a settled edge can
  empty that tree; a merge step marks nothing; from 162 vertices on the buffer outlasts the merge (`realSizing_cap`), so `assert(false)`
  is not reached. C90 needs only the part about marked edges.
* C91: `FloatLib` is an unknown library (`log2`, `pow`, division), assumed to have relative error at most `2^-40` and to return integer results
  exactly (`Accurate`). Error bounds (`FloatSizing`) give the thresholds below 36 exactly and, at all sizes, the five numeric facts
  the proofs use (`Calibrated` in `Calib`); the theorems of C02, C28, C32, C63 and C86–C90 are proved for thresholds with these facts and the
  refutations for thresholds that agree with the table up to 17.
* C92: the loop on the heap of shared trees of C60; the iterator keeps pointers to trees that `del_edge` erases in. Invariant (`At`): every
  such tree has lost only edges named in deletions, and what lies ahead is a suffix of what the loop would have shown (`dNext_spec`, any
  choice to skip or show erased edges). If only shown edges are deleted, the first occupied level is untouched while the loop is in the
  buffer, so the assertion holds. With C88 the calls return.
* C93: a saved and loaded graph has the same levels, counters and buffer content (`restart_ok`), so the invariants of C87 carry over.
* C94: the loop is followed component by component (`prSweep_vec`); a full sweep contracts the distance by `alpha`
  (`sweep_contract`), the equation is solved by linear algebra (`pagerank_exists`), and a sweep cut short lies below the full one,
  so the lost mass bounds its distance (`stopped_near`). C94_early: the whole mass is below the threshold after the first vertex.
* C95: `Algorithm` stores a copy of the graph that shares its trees. Insertions leave the shared trees as they are (`World.runFrom_adds`), so
  the copy is unchanged; deletions erase in them (C95_refuted, C95_undefined). `Algorithm<DKtree_background>` does not compile (the class is not copyable).
* C97: relation `Rl a b y x` (computed `y` within relative error `a-1` and absolute error `b` of exact `x`), carried through a sweep vertex by vertex (`fSweep_vec`); a turn is the exact sweep up to `reps`, `rdel` (`fTurn_vec`); contraction adds these errors up to a geometric series (`fLoop_near`); the constants of IEEE-754 are put in at the end. The exact instance of the model is that of C94 (`pageRankF_exact`), and `IEEE.arith` was compared with a machine on an example, bit for bit.
* C98: `Dbl` adds infinities and NaN to `IEEE.arith`; the machine loop is simulated by the rational one because `fTurn_vec` bounds every intermediate value (`dLoop_sim`); without edges the start vector is infinite and stays so (`pageRankD_empty`).
* C99: relations `ERel`, `NbRel` between an iterator and what it has still to visit, kept by every step; the loop `*it++` is a generic lemma `driveStar_eq` on such relations; the finished iterator of a nested loop is shown to stay at its end (`ERel.done`, `NbEnd.next`).
* C100, C101: the invariant of C56 with a budget `k` of edges erased in the levels (`6 k` at most the edge count, so that the last level always has room and `del_edge` never rebuilds)
  instead of none; `delEdge_few_ok` is the triple of `del_edge` under it. That the buffer of `DKtree_background_wait` holds the latest insertions only is a second, small triple
  (`addEdge_buf`), proved against the worker's effect on the buffer (none) and joined with the first on each execution. `RarePrune`, `Settled` and `ReAdded` speak of the calls only.
* C102: `MExec` interleaves any number of threads; each stretch of a thread declares the members it reads and writes, and that it does not touch
  others is proved (`qprog_touches`). Threads that write nothing another reads or writes commute with each other, so each runs as if alone
  (`MExec.apart`), and its answers are those of C86, C87, C89. The refutations run two loops over neighbours in one interleaving; `C102_clash` shows
  the conflict of every pair of clashing questions, so the hypothesis of the positive theorems cannot be weakened question by question.
* C103: threads that only read leave the state to the worker, so each runs with the worker as if alone (`MExec.alone`) and the program logic of
  C36–C38 applies to each, with the invariant carried along from call to call (`Ok.frame`, `bprog_ok`).
* C104: the threads work on one heap of trees (`HG`, as for C60), each with its own object. Invariant: every thread's object shows the graph its
  own calls make (`HHolds`), and calls of others preserve it because insertions only add trees to the heap (`addEdge_keep`). Races are excluded
  from the access lists; `C104_accesses` proves that the steps keep to them.
* C105–C107: the programs are functions from the characters of their files; a file of well-formed records is read back as the records (induction on
  characters), after which `create` is a run of insertions followed by `serialize` (C102's `Holds.adds`, C86's save and load) and `delete` a run of
  deletions on a restarted graph (C93's `restart_ok`, C88's induction). C107 is about all characters.
* C108: `build_edges` gives the edges (C105); the rest are C02, C32, C51, C53, C54, C56 and C36 on that history.
* C109: the potential function of C72 with slack: the buffer may exceed the current capacity by what rounding takes from
  it; exact quotients are monotone (`quot_mono`), computed ones are within `6·2^-40` of them.
* C72, C76, C109 (`_weight`): the program is run over `weigh K`, trees of `K` with the number of edges written to make them;
  the weights grow by exactly (`DKtree`) or at most (`DKtree_delay`) what the counters count.
* C110: potential = marked edges in the trees. A deletion marks at most one, an insertion none, a reorganisation leaves at
  most one (the erase of `(1,1)`); the rule `t/log2(log2 t) < k` with `log2 y <= 5/9*y` gives `t+1 <= 4/3*log2(log2 N)*(k-1)+2`.
  `C110_work`: `mergeAll` makes at most eight unions, each within the graph it leaves, and one build.
* C111: a reorganisation leaves at most one mark, and `t/log2(log2 t) < 2` has no solution from 3 edges on. Refuted for `DKtree_delay` by evaluation.
* C96: each counted triple begins with an edge, and at most `sqrt(m-1)` triples begin with the same edge (`heavyTriples_le`).
* C85: the invariant of C41 without a bound on the insertions: a step keeps it or is undefined (`addEdge_any`, `run_track_any`), and every
  stored tree fits the estimate (`Small`); edges in different blocks need a group of `L` each, so 8 levels cannot hold 540000 of them.
* C69: what the call at the failing assertion does without assertions, and a counting argument that the dropped edges are nowhere else.
* C67: with the invariant of C41, `C0`, `k_collection` and `max_r` form a well-formed `DKtree` (no empty tree, no level above `max_r`), so the loop
  lemmas of C09, C10 apply; the extra entry of `list_neighbour` adds the triangles through that edge (`trianglesHash_extra`).
* C68: the round trip of C22 applied to the members that are saved; graphs that differ only in the remains of finished merges
  simulate each other under every call (`Sim`); a loaded graph satisfies the invariant of C41 with nothing pending.
* C36–C38, C56–C59: rely/guarantee (`Ok` in `Conc`): every assertion is stable under worker steps, so it holds on every
  interleaving. C64: invariant of the locked sections; a well-founded measure decreases at each step that is not a spurious wake-up; states
  without a next step are analysed; simulations in both directions with the coarser model. C57: a rank decreases at each worker step. C39: simulation of one object, witnesses for two.

## Concurrency model

One user thread, one worker per object. A step is one access to an atomic flag or the stretch of code between two such
accesses. Each stretch declares the plain members it touches; a data race is two enabled stretches with conflicting
declarations. `C38_accesses` proves the declarations complete. For race-free programs C++ guarantees sequential
consistency, and stretches without conflict commute, so this granularity loses no behaviour; a race makes the
program undefined (C38 reports it). In `Bg` a locked section is one step and blocking on the condition variable a busy wait; `CondVar` models
both step by step and C64 proves the two models equivalent. Fairness is not assumed: C56–C57 are "can always finish" and "finishes within n worker steps".
In `BgTwo` the destructor's two locked sections are one step and the worker's test of both flags is one step; the theorem
`C39_sequential_partial` is about states in which this makes no difference.

## Trusted base

* Lean 4.33.0 kernel; axioms `propext`, `Classical.choice`, `Quot.sound` (Mathlib). No other axiom, no compiled evaluation:
  witnesses are evaluated by the kernel (`decide`, `decide +kernel`).
* The reading of the C++ text into the model, cited by file and line at each definition.
* `K2Impl.Lawful` (in `K2`): construction from edges, `adj`, `neigh`, `erase`, `total_edges`, `get_marked_edges`, `unionOp`, iterators, and
  `adj_forced` for coordinates in range. Outside the range nothing is assumed. A1 (`ForcedPure`: `adj_forced` does not
  change the tree) is a separate hypothesis of the theorems that need it; C43 and `Weak` do without it. `MarksOne` (`erase` marks at most
  one edge) is a separate hypothesis of C87–C90. C66 proves the
  contract of bit-encoded trees of every arity, so only the claim that sdsl stores and searches such trees remains assumed.
* `unionOp` of a null pointer is undefined. `k2_tree::equal` is reflexive and equal trees answer alike (`K2Eq`).
* Boost archives and `k2_tree::serialize/load` read back what they wrote; file operations succeed.
* `Bits`: `k2_tree` stores the usual level-wise encoding (`T`, `L`), the layout `union_support.hpp` itself assumes. The height
  function `H` is a parameter, so floating-point error in `ceil(log n / log k)` is covered if it is the same for all trees of a
  graph. Side conditions of a run (32-bit size estimate, at most 2^32 bits) are the hypothesis `Ctx`.
* C92 only: `erase` keeps the order in which the other edges are iterated (`KeepsOrder`, proved of the reference and the bit-encoded trees).
* C91 only: `A.Accurate` for the C library in use.
* `std::atomic` operations are sequentially consistent (the default used by the code).
* C102 takes from libraries, beyond their contracts: the trees hold their iterators as members (`neighbour_begin` of the tree returns a reference,
  DKtree.hpp:325-327), all other tree queries read only, `operator[]` of `unordered_map` on a present key writes nothing, `shared_ptr` counts are
  atomic. Assigning a member iterator is one step, and `Algorithm` (after copying) works on its copy in one stretch.
* C104 takes from libraries what C102 does, and: `adj_forced` and `unionOp` write nothing in the trees they read, `shared_ptr` counts are atomic. A call
  is one stretch, and the copies are made before the threads start.

## Modelled

All functions of `include/dktree/*.hpp`, `include/algorithm/Algorithm.hpp`, `Edge` of `include/graph/Graph.hpp` and the programs in `evaluation/`
except the following.

## Not modelled

* `test/`, printing functions and time measuring; of `evaluation/`: `atoi` of arguments, the `union_op` programs, the `time.cpp` programs,
  scripts, and `pageRank/pagerank.cpp`, which calls a static `pageRank(graph, …)` that `Algorithm` does not have and so does not compile.
* `sdsl::k2_tree`, Boost, the standard library (contracts above); memory allocation failure; I/O errors.
* Floating-point rounding of `MAXSZ` and `TAU` outside C91 and from `2^52` edges on; C31 and C94 are over an ordered field, C97 has the rounding of `pageRank` and C98 also its infinities and NaN (no fused or extended-precision operations; the two zeros are one).
* `Algorithm` on a background graph while a merge is pending (the iterators race, C65).
* Copying the background variants does not compile (they hold a `std::thread`). What `++` of a k2_tree's
  edge iterator does with an edge erased after the iterator was created is not in the repository: C92 lets it be shown or skipped, in any pattern.
* The default constructors of the background variants leave `run` and `needs_work` uninitialised; loading into such an
  object is modelled only as loading the `DKtree` part (C59).
* Constructing a graph with one vertex: `log2(1) = 0` gives a division by zero converted to an integer, modelled as undefined.

## Defects of the code found

1. `Container0::insert` reuses a slot index past the arrays after `erase` (C12, C13).
2. `DKtree::del_edge` rebuild: loses edge (1,1), miscounts, dereferences null, leaves a level above `max_r`, and runs for absent edges
   (C01, C03, C05–C07, C15, C16, C45).
3. `add_edge` throws on legal edges after deletions (C13).
4. Edge iterator: ignores erased buffer slots, ends early on an empty tree, `operator=` drops `_i` (C10).
5. Serialization: uninitialised edges written, stale files read, level above `max_r` lost; `operator==` out of bounds (C22–C24, C46, C47).
   A crash inside `serialize` or inside the clearing of `load` leaves a directory that is read back with edges missing (C74, C75).
6. Node and neighbour iterators hold vertices in `int` (C09, C11).
7. Triangle counters disagree; a directed triangle may be counted 0 times (C29, C30).
8. `DKtree_delay`: dropped insertions, null dereference in `del_edge`, loaded graphs cannot grow (C32, C33, C35, C48–C50).
9. `DKtree_delay_munro`: pending edges invisible (also to iterators and searches), double counting, `del_edge` empty, hash triangle
   counter over-counts the edge that triggered the last merge, edges being merged are not saved, loading keeps the old pending merge (C41, C52,
   C53, C55, C67, C68). For `k = 2` 435 particular insertions on 128 vertices fail the assertion (C54); with `NDEBUG`, as in the
   Makefile, edges are lost instead (C69).
10. `DKtree_background`, `_wait`: pending edges invisible, double storage, race on `max_r`, archive written before waiting, worker uses a
    destroyed object, iterators race with the worker and miss or repeat edges (C36–C38, C58, C59, C65); `_wait`: global flags (C39).
11. Copies of a `DKtree` share trees: deleting through a copy (or through the graph given to an `Algorithm`) removes edges from the other
    without changing its count (C60).
12. The neighbour iterator reads the live buffer: after a flush inside the loop it reports vertices that are no neighbours, and it follows
    links of erased nodes to edges deleted in the same round (C70, C71).
13. Copies of a `DKtree_delay` share trees and `add_edge` merges in place: an edge inserted through a copy is contained in the original
    (whose edge count does not change), and a later insertion of it through the original is ignored (C78).
14. The `union_support` of a copy of a `DKtree_delay_munro` points to the array of the original: if a merge is in progress, the copy ends
    it there and the next insertion through the original dereferences a null pointer (C80); if the original is gone, the pointer dangles.
15. `union_support` computes the capacity of the result in 32-bit arithmetic, and the sum wraps: it is 1431655764, 286331152, 1090785344
    and 16843008 bits for `k` = 2, 4, 8 and 16 on large graphs. A merge with a larger result writes out of bounds (C83):
    with arity 16, inserting 540000 edges in different blocks of 65536 vertices is undefined behaviour (C85).
16. `DKtreeEdgeIterator::operator++` asserts that the first occupied level still begins with the edge it began with when the loop started: a
    loop body that deletes that edge while the loop is in the buffer aborts the program (C92).
17. `pageRank` tests convergence after each vertex instead of after each sweep, against `N * convergence`: with more than `2/convergence`
    vertices having successors (two million by default) it returns after vertex 0, and all ranks but those of vertex 0 and its successors are 0 (C94).
18. `clustering_coefficient` divides by `m(m-1)`, `m` the number of edges: its result `q` satisfies `q^2 (m-1) <= 1`, is never 1 with three or more
    edges, and is 0/0 with fewer than two (C96).
19. `Algorithm` copies the graph it is given; the copy shares the trees, so deletions made later through the graph show in its results or make
    them undefined, and with `DKtree_delay` insertions show as well; its counter is never updated (C95).
20. `pageRank` on a graph without edges computes `1.0f / 0`: every rank it returns is infinite (C98).
21. `operator++(int)` of all iterators returns the advanced iterator; `operator=` of the edge iterator omits `_i`; `edge_begin()` and `neighbour_begin()` return references to one member, so nested loops by reference stop after one turn of the outer (C99).
22. For the same reason two threads that only read a graph race: both assign the member iterator, and one may visit the neighbours of the other's
    vertex. `Algorithm` objects work on copies that share the trees, so two of them race as well (C102).
23. A copy does not make a thread independent of the others: loops over copies race in the iterators of the shared trees, and a deletion from one
    thread's copy takes the edge away from the others (C104).
24. The programs in `evaluation/`: `add_mean` inserts lines of a dataset whatever their mark, unlike `create` (C105); `delete` can run into the
    rebuild's missing tree (C106); an empty line reads past the end of a vector, and a vertex from `2^31` on throws (C107).
25. The rebuild of `DKtree_delay::del_edge` merges only the first levels that have room, so it can leave the tree with the marked edges alone;
    then every deletion from that tree reorganises the graph again (C111).
