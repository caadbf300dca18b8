{
 "claims": [
  {
   "property": "C01",
   "status": "partial",
   "theorems": [
    "DK2.C01_contains_partial",
    "DK2.C01_11_partial",
    "DK2.C01_quiet_partial",
    "DK2.C01_refuted"
   ],
   "note": "Full statement C01_Full is false of the code (reorganisation drops (1,1)): C01_refuted. Proved: exact for every pair but (1,1) on every history; exact condition for (1,1); everything on histories without reorganisation."
  },
  {
   "property": "C02",
   "status": "proved",
   "theorems": [
    "DK2.C02_insert_only"
   ],
   "note": "Every lawful tree implementation, thresholds over the reals, every n >= 2."
  },
  {
   "property": "C03",
   "status": "partial",
   "theorems": [
    "DK2.C03_quiet_partial",
    "DK2.C03_lower_partial",
    "DK2.C03_refuted"
   ],
   "note": "False after a reorganisation with empty buffer (C03_refuted); exact without reorganisation; never under-reports."
  },
  {
   "property": "C04",
   "status": "proved",
   "theorems": [
    "DK2.C04_add_present",
    "DK2.C04_add_present_forced"
   ],
   "note": "The object is unchanged; the second theorem covers trees whose adj_forced has effects."
  },
  {
   "property": "C05",
   "status": "partial",
   "theorems": [
    "DK2.C05_quiet_partial",
    "DK2.C05_general_partial",
    "DK2.C05_refuted"
   ],
   "note": "Deleting an absent edge can trigger the reorganisation (C05_refuted)."
  },
  {
   "property": "C06",
   "status": "partial",
   "theorems": [
    "DK2.C06_add",
    "DK2.C06_del_partial",
    "DK2.C06_del_refuted"
   ],
   "note": "add_edge half proved in full; del_edge half false for (1,1) (C06_del_refuted)."
  },
  {
   "property": "C07",
   "status": "partial",
   "theorems": [
    "DK2.C07_sound_partial",
    "DK2.C07_quiet_partial",
    "DK2.C07_insert_only_partial",
    "DK2.C07_refuted"
   ],
   "note": "Incomplete after a reorganisation above max_r (C07_refuted)."
  },
  {
   "property": "C08",
   "status": "proved",
   "theorems": [
    "DK2.C08_neigh_it"
   ],
   "note": "Every history that returns (reorganisations included), every callback with any captured state."
  },
  {
   "property": "C09",
   "status": "proved",
   "theorems": [
    "DK2.C09_neighbour_iterator",
    "DK2.C09_successors",
    "DK2.C09_beyond_int"
   ],
   "note": "For vertex counts whose numbers fit the iterator's int (n <= 2^31); C09_beyond_int says what is reported beyond."
  },
  {
   "property": "C10",
   "status": "partial",
   "theorems": [
    "DK2.C10_edges_partial",
    "DK2.C10_quiet_partial",
    "DK2.C10_insert_only_partial",
    "DK2.C10_refuted",
    "DK2.C10_twice_refuted"
   ],
   "note": "False after a deletion from the buffer (C10_refuted) and on a second loop by reference (C10_twice_refuted); in full on insert-only graphs and on states without an erased buffer slot or an emptied tree."
  },
  {
   "property": "C100",
   "status": "proved",
   "theorems": [
    "DK2.C100_calls",
    "DK2.C100_reachable",
    "DK2.C100_exact",
    "DK2.C100_recent_refuted"
   ],
   "note": "Any thresholds with Sizing.Calibrated (realSizing_calibrated: those of the code, up to 2^64 edges); trees mark exactly one edge per successful erase (MarksOne). B is any bound of the buffer's capacity for the sizes met. Loops and algorithms for n <= 9999999. C100_recent_refuted: without the condition on recent edges the claim is false (the next insertion writes out of bounds)."
  },
  {
   "property": "C101",
   "status": "proved",
   "theorems": [
    "DK2.C101_calls",
    "DK2.C101_reachable",
    "DK2.C101_exact"
   ],
   "note": "Assumptions on thresholds and trees as in C100. Further insertions and edge loops after such a pruning are not claimed (a buffered edge may have been erased)."
  },
  {
   "property": "C102",
   "status": "partial",
   "theorems": [
    "DK2.C102_refuted",
    "DK2.C102_clash",
    "DK2.C102_swapped",
    "DK2.C102_wrong",
    "DK2.C102_alone_partial",
    "DK2.C102_inserts_partial",
    "DK2.C102_settled_partial",
    "DK2.C102_delay_partial"
   ],
   "note": "Refuted: two threads that loop over the neighbours of different vertices assign the same member; one of them then visits the neighbours of the other's vertex (C102_swapped), and every pair of clashing questions races at its first step (C102_clash). Proved for threads whose questions do not clash. Assumed of libraries: trees have member iterators as the reference type returned by neighbour_begin shows, other tree queries are read-only, operator[] of unordered_map on a present key writes nothing, reference counts are atomic."
  },
  {
   "property": "C103",
   "status": "partial",
   "theorems": [
    "DK2.C103_refuted",
    "DK2.C103_member_partial",
    "DK2.C103_idle_partial",
    "DK2.C103_exact_partial",
    "DK2.C103_again_partial"
   ],
   "note": "Refuted while a merge is pending (list_neighbour reads max_r while the worker raises it). Proved: membership and counters on every history and schedule (C103_member_partial), every query with no merge pending (C103_idle_partial, exact if no edge was inserted while present: C103_exact_partial), and that what one thread has seen all see later (C103_again_partial). Modifying calls concurrent with readers are not claimed: they race on the buffer. Iterator loops of the background classes are not in the threads (C102 gives their clash)."
  },
  {
   "property": "C104",
   "status": "partial",
   "theorems": [
    "DK2.C104_refuted",
    "DK2.C104_clash",
    "DK2.C104_deletes",
    "DK2.C104_accesses",
    "DK2.C104_insert_partial"
   ],
   "note": "Refuted: two copies share trees, so two loops over neighbours race (C104_clash) and a deletion through one copy is seen by the thread that owns another (C104_deletes). Proved for any number of threads that delete nothing and of which at most one runs over neighbours and at most one over edges. C104_accesses: a call of such a thread leaves every other copy and every existing tree as it was. A call is one stretch; the copies exist before the threads start; adj_forced and unionOp are assumed to write nothing in the trees they read, as ForcedPure says, and reference counts to be atomic."
  },
  {
   "property": "C105",
   "status": "proved",
   "theorems": [
    "DK2.Tools.C105_create",
    "DK2.Tools.C105_runs",
    "DK2.Tools.C105_build_edges",
    "DK2.Tools.C105_add_mean"
   ],
   "note": "Files are lists of characters; getline, split and stoi are modelled on all inputs. C105_add_mean is the graph add_mean builds, which ignores marks. Left out: time measuring and printing, atoi of the arguments, the loops of add.cpp that time build_edges' list on each class (C01 ff. say what they build)."
  },
  {
   "property": "C106",
   "status": "partial",
   "theorems": [
    "DK2.Tools.C106_refuted",
    "DK2.Tools.C106_prune_partial"
   ],
   "note": "Refuted by a dataset of three edges and a list of two (undefined behaviour in the rebuild). Proved when at most one in seven of the distinct edges of the dataset is listed; no bound on file sizes."
  },
  {
   "property": "C107",
   "status": "partial",
   "theorems": [
    "DK2.Tools.C107_refuted",
    "DK2.Tools.C107_fields_partial",
    "DK2.Tools.C107_exact",
    "DK2.Tools.C107_big",
    "DK2.Tools.C107_negative"
   ],
   "note": "Refuted by an empty line. Proved for files whose lines have at least two blanks; C107_exact says exactly which files are undefined; C107_big and C107_negative give the treatment of numbers that are no int and of negative ones."
  },
  {
   "property": "C108",
   "status": "partial",
   "theorems": [
    "DK2.Tools.C108_refuted",
    "DK2.Tools.C108_munro_refuted",
    "DK2.Tools.C108_tree",
    "DK2.Tools.C108_delay_partial",
    "DK2.Tools.C108_munro_partial",
    "DK2.Tools.C108_background"
   ],
   "note": "Refuted: 25 edges of 8 vertices stop DKtree_delay, 435 edges of 128 vertices DKtree_delay_munro, at an assertion. Proved in full for versions 1 (all datasets), 2 and 5 (distinct edges); version 3 from 162 vertices on; version 4 below MAXSZ(n,4) distinct edges."
  },
  {
   "property": "C109",
   "status": "proved",
   "theorems": [
    "DK2.C109_amortized",
    "DK2.C109_weight",
    "DK2.fmaxsz_ratio"
   ],
   "note": "The library is any FloatLib with A.Accurate (DESIGN, C91). C109_weight states the bound about the unmodified program over trees that remember what was written to make them. Cost counted in edges of the trees built, as in C72."
  },
  {
   "property": "C11",
   "status": "proved",
   "theorems": [
    "DK2.C11_node_iterator",
    "DK2.C11_beyond_int"
   ],
   "note": "Vertex counts representable as int; beyond, the loop is empty (C11_beyond_int)."
  },
  {
   "property": "C110",
   "status": "proved",
   "theorems": [
    "DK2.C110_reorganisations",
    "DK2.C110_reorganisations_float",
    "DK2.C110_work",
    "DK2.C110_work_float"
   ],
   "note": "reorgs lists get_number_edges() right after each del_edge that enters the rebuild branch (DKtree.hpp:207). Trees mark at most one edge per erase (MarksOne). C110_work: the edges written into trees by all deletions, at most nine per edge of a reorganised graph, as trees that carry their cost (weigh K) show. The exact thresholds, and any FloatLib with A.Accurate for fewer than 2^52 calls."
  },
  {
   "property": "C111",
   "status": "partial",
   "theorems": [
    "DK2.C111_lasts",
    "DK2.C111_delay_refuted"
   ],
   "note": "C111_lasts: DKtree, in full. Refuted for DKtree_delay: its rebuild merges the first levels that have room and leaves the tree with the marked edges as it is; after 11 insertions on 5 vertices and 4 deletions, every further deletion reorganises the graph. Not modelled here: the background variants."
  },
  {
   "property": "C12",
   "status": "partial",
   "theorems": [
    "DK2.C12_exact_partial",
    "DK2.C12_no_erased_partial",
    "DK2.C12_C13_insert_only_partial",
    "DK2.C12_refuted"
   ],
   "note": "False after deletions from the buffer (C12_refuted); exact characterisation of the failing states."
  },
  {
   "property": "C13",
   "status": "partial",
   "theorems": [
    "DK2.C13_exact_partial",
    "DK2.C13_clean_partial",
    "DK2.C12_C13_insert_only_partial",
    "DK2.C13_refuted"
   ],
   "note": "False after deletions (C13_refuted); exact characterisation of the failing states."
  },
  {
   "property": "C14",
   "status": "proved",
   "theorems": [
    "DK2.C14_order"
   ],
   "note": "Any two insertion sequences with the same set of edges."
  },
  {
   "property": "C15",
   "status": "partial",
   "theorems": [
    "DK2.C15_add_del",
    "DK2.C15_del_add_partial",
    "DK2.C15_del_add_refuted"
   ],
   "note": "add-then-del in full; del-then-add false for (1,1)."
  },
  {
   "property": "C16",
   "status": "partial",
   "theorems": [
    "DK2.C16_partial",
    "DK2.C16_neighbour_partial",
    "DK2.C16_refuted"
   ],
   "note": "False: the counter drifts, (1,1) is dropped, neighbours may vanish (C16_refuted). Exact membership and count for every reorganisation (C16_partial), exact condition under which list_neighbour is complete, empty otherwise (C16_neighbour_partial)."
  },
  {
   "property": "C17",
   "status": "proved",
   "theorems": [
    "DK2.C17_nodes"
   ],
   "note": "Every history that returns."
  },
  {
   "property": "C18",
   "status": "proved",
   "theorems": [
    "DK2.EHT.C18_find",
    "DK2.EHT.C18_key_injective"
   ],
   "note": "Every call sequence, any table capacity and hash mixing function of the code."
  },
  {
   "property": "C19",
   "status": "proved",
   "theorems": [
    "DK2.C19_set",
    "DK2.C19_returns"
   ],
   "note": "Call sequences that return; C19_returns says exactly when a call returns."
  },
  {
   "property": "C20",
   "status": "proved",
   "theorems": [
    "DK2.C20_neighbours"
   ],
   "note": "Every container reached by calls that returned."
  },
  {
   "property": "C21",
   "status": "proved",
   "theorems": [
    "DK2.C21_clean"
   ],
   "note": "Every container reached by calls that returned."
  },
  {
   "property": "C22",
   "status": "partial",
   "theorems": [
    "DK2.C22_roundtrip_partial",
    "DK2.C22_insert_only_partial",
    "DK2.C22_undefined",
    "DK2.C22_ghost_edges",
    "DK2.C22_refuted",
    "DK2.C22_above_refuted"
   ],
   "note": "False when a buffered edge was deleted (uninitialised edges are archived: C22_refuted, C22_ghost_edges) and when a reorganisation left a level above max_r (C22_above_refuted); in full for insert-only graphs."
  },
  {
   "property": "C23",
   "status": "partial",
   "theorems": [
    "DK2.C23_partial",
    "DK2.C23_refuted"
   ],
   "note": "False: stale level files are loaded (C23_refuted)."
  },
  {
   "property": "C24",
   "status": "partial",
   "theorems": [
    "DK2.C24_partial",
    "DK2.C24_quiet_partial",
    "DK2.C24_refuted"
   ],
   "note": "False for contains when a reorganisation left a level above max_r (C24_refuted); in full without reorganisation."
  },
  {
   "property": "C25",
   "status": "proved",
   "theorems": [
    "DK2.C25_C26_bfs",
    "DK2.C25_C26_bfs_spec"
   ],
   "note": "Vertex counts that fit int."
  },
  {
   "property": "C26",
   "status": "proved",
   "theorems": [
    "DK2.C25_C26_bfs",
    "DK2.C25_C26_bfs_spec"
   ],
   "note": "Vertex counts that fit int."
  },
  {
   "property": "C27",
   "status": "proved",
   "theorems": [
    "DK2.C27_dfs",
    "DK2.C27_dfs_spec"
   ],
   "note": "Vertex counts that fit int."
  },
  {
   "property": "C28",
   "status": "proved",
   "theorems": [
    "DK2.C28_hash",
    "DK2.C28_dktree"
   ],
   "note": "Any graph whose edge loop lists its edges once (C28_hash), and every DKtree built by insertions (C28_dktree); the int returned is the count modulo 2^32, exact below 2^31."
  },
  {
   "property": "C29",
   "status": "partial",
   "theorems": [
    "DK2.C29_partial",
    "DK2.C29_refuted"
   ],
   "note": "False with self-loops (C29_refuted); exact value and agreement without self-loops."
  },
  {
   "property": "C30",
   "status": "partial",
   "theorems": [
    "DK2.C30_partial",
    "DK2.C30_refuted"
   ],
   "note": "False: a directed triangle may be counted 0 times (C30_refuted); exact characterisation of the returned number."
  },
  {
   "property": "C31",
   "status": "proved",
   "theorems": [
    "DK2.C31_sweep",
    "DK2.C31_pageRank"
   ],
   "note": "Exact arithmetic over any ordered field instead of double."
  },
  {
   "property": "C32",
   "status": "partial",
   "theorems": [
    "DK2.C32_partial",
    "DK2.C32_large_partial",
    "DK2.C32_sound_partial",
    "DK2.C32_refuted"
   ],
   "note": "False in an NDEBUG build with a small buffer (C32_refuted); exact with assertions enabled, for 162 vertices or more in both builds, and never a spurious edge."
  },
  {
   "property": "C33",
   "status": "partial",
   "theorems": [
    "DK2.C33_capacity_partial",
    "DK2.C33_large_partial",
    "DK2.C33_only_partial",
    "DK2.C33_refuted",
    "DK2.C33_dropped"
   ],
   "note": "False on 8 vertices (C33_refuted, C33_dropped); holds when MAXSZ(m,0) >= 6, in particular for 162 vertices or more."
  },
  {
   "property": "C34",
   "status": "proved",
   "theorems": [
    "DK2.C34"
   ],
   "note": "Any insertion history, both builds, every threshold function."
  },
  {
   "property": "C35",
   "status": "partial",
   "theorems": [
    "DK2.C35_partial",
    "DK2.C35_refuted"
   ],
   "note": "False: null dereference (C35_refuted); whenever calls return, contains and the count are exact and list_neighbour lists only edges of the graph."
  },
  {
   "property": "C36",
   "status": "partial",
   "theorems": [
    "DK2.C36_no_loss_partial",
    "DK2.C36_no_readd_partial",
    "DK2.C36_calm_partial",
    "DK2.C36_refuted",
    "DK2.C36_count_refuted"
   ],
   "note": "False for both classes: an edge inserted again while the worker holds it survives its deletion (C36_refuted) and is counted twice (C36_count_refuted). On every history and schedule nothing is lost and only such edges are wrong; exact when no edge is inserted while present, or when every modifying call is made with no merge pending."
  },
  {
   "property": "C37",
   "status": "partial",
   "theorems": [
    "DK2.C37_sound_partial",
    "DK2.C37_last_partial",
    "DK2.C37_refuted",
    "DK2.BG.C37_neighbours_partial",
    "DK2.BG.C37_last_neighbour_partial",
    "DK2.BG.C37_neighbours_refuted"
   ],
   "note": "False for both classes: the buffered edges are invisible until the worker is done (C37_refuted). On every history and schedule contains returns, is never wrongly true except for edges of C36_refuted, is stable, and sees the last inserted edge; list_neighbour returns and agrees with contains in both directions."
  },
  {
   "property": "C38",
   "status": "partial",
   "theorems": [
    "DK2.C38_partial",
    "DK2.C38_accesses",
    "DK2.C38_refuted"
   ],
   "note": "False for both classes: list_neighbour reads max_r while the worker writes it (C38_refuted). add_edge, del_edge and contains are race free on every history and schedule; the declared accesses are proved complete (C38_accesses)."
  },
  {
   "property": "C39",
   "status": "partial",
   "theorems": [
    "DK2.C39_sequential_partial",
    "DK2.C39_refuted",
    "DK2.C39_ctor_refuted",
    "DK2.C39_worker_refuted",
    "DK2.C39_dtor_refuted",
    "DK2.C39_zombie_refuted"
   ],
   "note": "False: the flags are global (four scenarios refuted). Proved when the graphs are used one after the other and the first worker has ended before the second graph is constructed."
  },
  {
   "property": "C40",
   "status": "proved",
   "theorems": [
    "DK2.C40",
    "DK2.BT.encode_adj"
   ],
   "note": "Any number of trees, any k >= 2, any height, any sequence of positive budgets. The only size condition is the exact one: the bit vectors of the result are not larger than the 32-bit estimate of the program; C83 shows that the program writes out of bounds otherwise."
  },
  {
   "property": "C41",
   "status": "partial",
   "theorems": [
    "DK2.DKM.C41_partial",
    "DK2.DKM.C41_last_partial",
    "DK2.DKM.C41_refuted"
   ],
   "note": "False: eight of 18 inserted edges are invisible (C41_refuted). Proved: exactly the pending batch can be hidden, at most MAXSZ(m,0)+1 edges; the last inserted edge is always visible."
  },
  {
   "property": "C42",
   "status": "partial",
   "theorems": [
    "DK2.C42_general_partial",
    "DK2.C42_insert_only_partial",
    "DK2.C42_refuted"
   ],
   "note": "False below 8 vertices because MAXSZ(m,0) is not monotone there (C42_refuted); bound for every history (C42_general_partial), in full for insert-only graphs with n >= 8."
  },
  {
   "property": "C43",
   "status": "proved",
   "theorems": [
    "DK2.C43_add_any_forced"
   ],
   "note": "No assumption on what adj_forced does to the tree."
  },
  {
   "property": "C44",
   "status": "proved",
   "theorems": [
    "DK2.C44_one_place"
   ],
   "note": "Every history that returns, reorganisations included."
  },
  {
   "property": "C45",
   "status": "partial",
   "theorems": [
    "DK2.C45_partial",
    "DK2.C45_exact_partial",
    "DK2.C45_refuted"
   ],
   "note": "False: null dereference when reorganising with an empty buffer (C45_refuted). C45_exact_partial: exactly when the call fails; it is then undefined behaviour, and it returns in every other case."
  },
  {
   "property": "C46",
   "status": "partial",
   "theorems": [
    "DK2.C46_partial",
    "DK2.C46_refuted"
   ],
   "note": "False: levels without a file keep the old tree (C46_refuted)."
  },
  {
   "property": "C47",
   "status": "partial",
   "theorems": [
    "DK2.C47_partial",
    "DK2.C47_refuted"
   ],
   "note": "False: out-of-bounds read when the left buffer is longer (C47_refuted)."
  },
  {
   "property": "C48",
   "status": "partial",
   "theorems": [
    "DK2.C48_partial",
    "DK2.C48_refuted"
   ],
   "note": "False after a reorganisation by del_edge (C48_refuted); in full for insertion histories in both builds."
  },
  {
   "property": "C49",
   "status": "partial",
   "theorems": [
    "DK2.C49_partial",
    "DK2.C49_refuted"
   ],
   "note": "False (C49_refuted); it fails exactly when the level search finds no level."
  },
  {
   "property": "C50",
   "status": "partial",
   "theorems": [
    "DK2.C50_partial",
    "DK2.C50_refuted"
   ],
   "note": "False (C50_refuted); exact condition: levels 0 and 1 of the loaded graph are empty."
  },
  {
   "property": "C51",
   "status": "proved",
   "theorems": [
    "DK2.DKM.C51",
    "DK2.DKM.C51_sound",
    "DK2.DKM.C51_k3"
   ],
   "note": "Every k; every history for k = 2, 4, 8, 16, and histories within the 32-bit size estimate for the other k (Cond); soundness also with NDEBUG, exactness also with NDEBUG for k >= 3 (C51_k3)."
  },
  {
   "property": "C52",
   "status": "partial",
   "theorems": [
    "DK2.DKM.C52_partial",
    "DK2.DKM.C52_sound_partial",
    "DK2.DKM.C52_refuted",
    "DK2.DKM.C52_refuted_pending"
   ],
   "note": "False on the empty graph (C52_refuted) and while a merge is pending (C52_refuted_pending); C52_partial gives the exact multiplicities."
  },
  {
   "property": "C53",
   "status": "partial",
   "theorems": [
    "DK2.DKM.C53_bounds_partial",
    "DK2.DKM.C53_distinct_partial",
    "DK2.DKM.C53_refuted"
   ],
   "note": "False after re-inserting a hidden edge (C53_refuted); exact when no edge is inserted twice, bounds always."
  },
  {
   "property": "C54",
   "status": "partial",
   "theorems": [
    "DK2.DKM.C54_k3_partial",
    "DK2.DKM.C54_k2_partial",
    "DK2.DKM.C54_outcome_partial",
    "DK2.DKM.C54_any_partial",
    "DK2.DKM.C54_refuted"
   ],
   "note": "False for k = 2: 435 distinct insertions on 128 vertices stop at the assertion (C54_refuted). Proved for k >= 3 and for k = 2 below MAXSZ(n,4) insertions; the assertion is the only abnormal outcome while the 32-bit size estimate is large enough (beyond it: C85)."
  },
  {
   "property": "C55",
   "status": "partial",
   "theorems": [
    "DK2.DKM.C55_noop_partial",
    "DK2.DKM.C55_refuted"
   ],
   "note": "False: del_edge is empty (C55_refuted, C55_noop_partial)."
  },
  {
   "property": "C56",
   "status": "proved",
   "theorems": [
    "DK2.C56_insertions",
    "DK2.C56_insertions_real",
    "DK2.C56_reachable"
   ],
   "note": "Every number of vertices >= 2 (the constructor is undefined for 1), both classes, every schedule."
  },
  {
   "property": "C57",
   "status": "proved",
   "theorems": [
    "DK2.C57_merge_finishes",
    "DK2.C57_insertions"
   ],
   "note": "Both classes, every history and schedule."
  },
  {
   "property": "C58",
   "status": "partial",
   "theorems": [
    "DK2.C58_wait",
    "DK2.C58_partial",
    "DK2.C58_returns",
    "DK2.C58_refuted"
   ],
   "note": "Proved for DKtree_background_wait (C58_wait); false for DKtree_background, whose flags are members (C58_refuted); in both the worker touches no plain member and ends within two steps (C58_partial)."
  },
  {
   "property": "C59",
   "status": "partial",
   "theorems": [
    "DK2.C59_idle_partial",
    "DK2.C59_insert_partial",
    "DK2.C59_saved_partial",
    "DK2.C59_levels_partial",
    "DK2.C59_refuted",
    "DK2.C59_race_refuted"
   ],
   "note": "False for both classes while a merge is pending: the header is written before the wait (C59_refuted, C59_race_refuted); exact when nothing is pending at the start. In every case the files hold exactly the inserted edges (C59_saved_partial), but the header may not tell load to read them."
  },
  {
   "property": "C60",
   "status": "partial",
   "theorems": [
    "DK2.C60_insert_partial",
    "DK2.C60_delete_partial",
    "DK2.C60_refuted"
   ],
   "note": "False for deletions: copies share trees, deleting through one removes the edge from the other without changing its count (C60_refuted; C60_delete_partial says exactly which edges). Insertions on both sides never interfere (C60_insert_partial)."
  },
  {
   "property": "C61",
   "status": "proved",
   "theorems": [
    "DK2.C61_independent"
   ],
   "note": "Any tree implementation and thresholds, no hypothesis on the histories."
  },
  {
   "property": "C62",
   "status": "proved",
   "theorems": [
    "DK2.C62_snapshot",
    "DK2.C62_total"
   ],
   "note": "Insertions in the loop body; deletions in the body are not covered. C62_total: graphs built by insertions, n <= 9999999 (beyond it the level array overflows). C62_snapshot: every history."
  },
  {
   "property": "C63",
   "status": "proved",
   "theorems": [
    "DK2.C63_neighbour",
    "DK2.C63_consistent",
    "DK2.C63_assert",
    "DK2.C63_large"
   ],
   "note": "C63_consistent is the full edge-loop and Algorithm claim in both builds (2 <= n <= 9999999); C63_neighbour the neighbour loop on every history; C63_assert and C63_large relate it to the inserted edges."
  },
  {
   "property": "C64",
   "status": "proved",
   "theorems": [
    "DK2.C64_no_lost_wakeup",
    "DK2.C64_calls_end",
    "DK2.C64_infinite",
    "DK2.C64_insertions",
    "DK2.C64_insertions_real",
    "DK2.C64_destructor",
    "DK2.C64_refines",
    "DK2.C64_refines_calls",
    "DK2.C64_complete"
   ],
   "note": "Lock, test, sleep, wake, change, notify and unlock are separate steps. C64_calls_end: every history; C64_insertions, C64_destructor: nothing fails after insertions. C64_refines and C64_complete: the model with atomic sections and busy waits (C36-C38, C56-C59) has the same behaviours."
  },
  {
   "property": "C65",
   "status": "partial",
   "theorems": [
    "DK2.BG.C65_idle_partial",
    "DK2.BG.C65_calm_partial",
    "DK2.BG.C65_insert_partial",
    "DK2.BG.C65_sound_partial",
    "DK2.BG.C65_levels",
    "DK2.BG.C65_accesses",
    "DK2.BG.C65_refuted",
    "DK2.BG.C65_race_refuted",
    "DK2.BG.C65_dup_refuted"
   ],
   "note": "False for both classes: while a merge is pending the loops miss edges and race with the worker (C65_refuted, C65_race_refuted); an edge re-inserted meanwhile is visited twice even later (C65_dup_refuted). Exact and race free when nothing is pending and no edge is inserted while present, or when every modifying call was made with no merge pending (no erased buffer slot: always after insertions). In every case only inserted edges are visited (C65_sound_partial)."
  },
  {
   "property": "C66",
   "status": "proved",
   "theorems": [
    "DK2.C66_contract",
    "DK2.C66_insert",
    "DK2.C66_history",
    "DK2.C66_bits"
   ],
   "note": "Every arity k >= 2 and every size. C66_contract discharges the whole contract K2Impl.Lawful, so every theorem about lawful trees applies. The pair (1,1) is excluded in C66_history because DKtree itself mishandles it (C01). union is specified by its edges here; union_support is C40."
  },
  {
   "property": "C67",
   "status": "partial",
   "theorems": [
    "DK2.DKM.C67_idle_partial",
    "DK2.DKM.C67_triangles_partial",
    "DK2.DKM.C67_sound_partial",
    "DK2.DKM.C67_refuted",
    "DK2.DKM.C67_triangles_refuted"
   ],
   "note": "False while a merge is pending: the loops miss the edges being merged (C67_refuted). With no merge pending the loops, bfs, dfs and pageRank are right when no edge is lost (assertions enabled or k >= 3); count_triangles_dummy_hash counts the triangles through the edge that triggered the last merge twice (C67_triangles_partial, C67_triangles_refuted). In every state the loops end and visit only inserted edges (C67_sound_partial)."
  },
  {
   "property": "C68",
   "status": "partial",
   "theorems": [
    "DK2.DKM.C68_idle_partial",
    "DK2.DKM.C68_pending_partial",
    "DK2.DKM.C68_neighbour_partial",
    "DK2.DKM.C68_lost",
    "DK2.DKM.C68_refuted",
    "DK2.DKM.C68_reload_refuted"
   ],
   "note": "False while a merge is pending: what is being merged is not saved, although counted and although the loaded graph compares equal (C68_lost); loading into an object with a pending merge leaves contains answering from the old graph (C68_reload_refuted). With no merge pending the loaded graph is indistinguishable by contains, counts, edge loops and the outcome of every further call (C68_idle_partial); list_neighbour differs in one entry (C68_neighbour_partial). In every state it holds exactly what the iterators saw (C68_pending_partial)."
  },
  {
   "property": "C69",
   "status": "partial",
   "theorems": [
    "DK2.DKM.C69_assert_partial",
    "DK2.DKM.C69_k3_partial",
    "DK2.DKM.C69_k2_partial",
    "DK2.DKM.C69_loss",
    "DK2.DKM.C69_refuted"
   ],
   "note": "False with NDEBUG (the Makefile's flags) and k = 2: every history of distinct insertions that would fail the assertion loses an edge for good although it is still counted (C69_loss, C69_refuted). Proved with assertions, for k >= 3, and for k = 2 below MAXSZ(n,4) insertions."
  },
  {
   "property": "C70",
   "status": "partial",
   "theorems": [
    "DK2.C70_fits_partial",
    "DK2.C70_refuted"
   ],
   "note": "False once an insertion in the loop flushes the buffer: the iterator then reads reused slots and reports a vertex that is no neighbour (C70_refuted). While the insertions fit into the buffer the loop visits exactly the old neighbours, each once, and changes the graph as the same insertions outside a loop (n >= 8)."
  },
  {
   "property": "C71",
   "status": "partial",
   "theorems": [
    "DK2.C71_visited_partial",
    "DK2.C71_refuted"
   ],
   "note": "False when a round deletes the visited edge and another one: the deleted edge is still visited (C71_refuted). Deleting (a selection of) the visited edges is exact while no edge has left the buffer (n >= 8); what an iterator of the external k2_tree does after erase is unspecified."
  },
  {
   "property": "C72",
   "status": "proved",
   "theorems": [
    "DK2.C72_amortized",
    "DK2.C72_weight",
    "DK2.DK.addEdgeC_fst"
   ],
   "note": "Thresholds read over the reals; the counted add_edge is proved to be add_edge (addEdgeC_fst). Cost is counted in edges of the trees built, not in machine steps of the external k2_tree."
  },
  {
   "property": "C73",
   "status": "proved",
   "theorems": [
    "DK2.C73_clear"
   ],
   "note": "For every object, directory and later graph of the kind C22 covers."
  },
  {
   "property": "C74",
   "status": "partial",
   "theorems": [
    "DK2.C74_refuted",
    "DK2.C74_lost",
    "DK2.C74_first_partial",
    "DK2.C74_sound_partial"
   ],
   "note": "Refuted: after a crash between two files the graph read back can lack an edge that both the old and the new graph have. Proved: first use of a directory always throws after a crash; otherwise no edge is invented."
  },
  {
   "property": "C75",
   "status": "partial",
   "theorems": [
    "DK2.C75_refuted",
    "DK2.C75_partial"
   ],
   "note": "Refuted: a level file removed before 0.kt is silently missing. Proved: throws iff 0.kt is gone, never an extra edge, same graph if no level file is gone."
  },
  {
   "property": "C76",
   "status": "proved",
   "theorems": [
    "DK2.C76_work",
    "DK2.C76_weight",
    "DK2.DKD.addEdgeC_fst"
   ],
   "note": "The counted add_edge is proved to be add_edge (addEdgeC_fst). Work is counted in unions and edges written, not in machine steps of the external k2_tree; the first clause holds of every state."
  },
  {
   "property": "C77",
   "status": "proved",
   "theorems": [
    "DK2.C77_share",
    "DK2.C77_copies",
    "DK2.DKM.addEdgeC_fst"
   ],
   "note": "Within the 32-bit limit on the size estimate (Ctx), both builds for the upper bounds, assertions enabled for C77_copies; thresholds read over the reals. The counted add_edge is proved to be add_edge. Allocation of the result bit vectors is not counted."
  },
  {
   "property": "C78",
   "status": "partial",
   "theorems": [
    "DK2.C78_refuted",
    "DK2.C78_ignored",
    "DK2.C78_fresh_partial",
    "DK2.C78_insert_partial"
   ],
   "note": "Refuted: merges are done in place in trees the copy shares, so an insertion through the copy appears in the original. Proved: independence when the copied graph holds no tree yet; for any number of copies and insertions no undefined behaviour, no lost edge (assertions enabled) and no edge nobody inserted."
  },
  {
   "property": "C79",
   "status": "proved",
   "theorems": [
    "DK2.C79_independent"
   ],
   "note": "Both builds, every sizing, deletions included."
  },
  {
   "property": "C80",
   "status": "partial",
   "theorems": [
    "DK2.C80_refuted",
    "DK2.wCopy_run",
    "DK2.C80_idle_partial"
   ],
   "note": "Refuted when a merge is in progress: the copy finishes it in the array of the original, whose next insertion dereferences a null pointer. Proved for every program (any number of copies) that copies only graphs without a merge in progress, every k, height function and threshold function, both builds."
  },
  {
   "property": "C81",
   "status": "proved",
   "theorems": [
    "DK2.C81_dktree",
    "DK2.C81_history",
    "DK2.C81_delay",
    "DK2.C81_background",
    "DK2.C81_munro"
   ],
   "note": "For any threshold functions with MAXSZ(m,8) = 2m (exact in double arithmetic); DKtree_delay and DKtree_delay_munro with assertions enabled, DKtree_background and DKtree_delay_munro with no merge pending; deletions only while none triggers a reorganisation (C81_history)."
  },
  {
   "property": "C82",
   "status": "proved",
   "theorems": [
    "DK2.C82_dktree",
    "DK2.C82_call",
    "DK2.C82_no_escape",
    "DK2.C82_delay",
    "DK2.DK.addEdgeX_spec",
    "DK2.DKD.addEdgeX_spec"
   ],
   "note": "addEdgeX is add_edge with the object left at the throw (addEdgeX_spec). For DKtree_delay with assertions enabled; allocation failures are not modelled."
  },
  {
   "property": "C83",
   "status": "partial",
   "theorems": [
    "DK2.C83_refuted",
    "DK2.C83_iff_partial",
    "DK2.C40_exact",
    "DK2.C40_over"
   ],
   "note": "Refuted in general: for k = 16 the 32-bit estimate is 16843008 bits, and merging one edge into a tree of 65794 edges in different blocks of 65536 vertices writes out of bounds. C83_iff_partial (and C40_exact): for every arity whose square divides 2^32 (the powers of two up to 2^16), every height and every collection of trees, a merge with enough budget ends with the right result exactly when the result is not larger than the estimate, and writes out of bounds otherwise."
  },
  {
   "property": "C84",
   "status": "proved",
   "theorems": [
    "DK2.C84_independent",
    "DK2.C84_idle"
   ],
   "note": "Any number of graphs, constructed at any point of the program, both builds, any parameters. C84_idle adds copies of graphs with no merge in progress. All graphs of the program have the same arity k."
  },
  {
   "property": "C85",
   "status": "partial",
   "theorems": [
    "DK2.C85_refuted",
    "DK2.C85_over",
    "DK2.C85_limit_partial",
    "DK2.C85_small_partial",
    "DK2.C85_right_partial",
    "DK2.DKM.C54_any_partial"
   ],
   "note": "Refuted: with arity 16 every history of 540000 insertions in different 16 x 16 blocks of 65536 vertices is undefined (C85_over). Proved: no undefined behaviour up to explicit limits for every k from 2 to 16 (C85_limit_partial) and for any number of insertions on small graphs (C85_small_partial); for powers of two, beyond the limit, a history that returns is right (C85_right_partial)."
  },
  {
   "property": "C86",
   "status": "proved",
   "theorems": [
    "DK2.C86_program",
    "DK2.C86_equal"
   ],
   "note": "Any lawful tree implementation whose adj_forced changes nothing (ForcedPure, the implementation of k2_tree assumed throughout), thresholds of the code. Programs without del_edge, without saving over an older save and without loading into a used object: each of these is refuted separately (C01, C23, C46). C86_equal is about programs that compare at their end; operator== on buffers of different sizes is undefined (C47)."
  },
  {
   "property": "C87",
   "status": "proved",
   "theorems": [
    "DK2.C87_settled",
    "DK2.C87_eighth",
    "DK2.C87_saved",
    "DK2.C87_recent_refuted"
   ],
   "note": "For trees that mark exactly one edge per successful erase (MarksOne, beyond the contract Lawful; shown for the reference trees and the bit-encoded trees) and ForcedPure. Loops and algorithms for n <= 9999999 (limit of the edge iterator). C87_recent_refuted: without condition (b) the claim is false."
  },
  {
   "property": "C88",
   "status": "proved",
   "theorems": [
    "DK2.C88_prune",
    "DK2.C88_build_prune"
   ],
   "note": "Same assumptions as C87. Edge loops, serialize and further insertions after such a pruning are not claimed: they are refuted in C10, C22 and C12."
  },
  {
   "property": "C89",
   "status": "proved",
   "theorems": [
    "DK2.C89_settled",
    "DK2.C89_eighth",
    "DK2.C89_recent_refuted"
   ],
   "note": "Trees mark exactly one edge per successful erase (MarksOne). The eighth of the size bounds the buffer's capacity (C89_settled takes any bound B >= 8 of it). Loops and algorithms for n <= 9999999. C89_recent_refuted: without condition (b) the claim is false, in both builds."
  },
  {
   "property": "C90",
   "status": "proved",
   "theorems": [
    "DK2.C90_prune",
    "DK2.C90_build_prune"
   ],
   "note": "C90_prune: 162 or more vertices, both builds. C90_build_prune: any n >= 2, assertions enabled (without them insertions can be dropped, C33). MarksOne as in C89. Further insertions, edge loops and serialize after such a pruning are not claimed."
  },
  {
   "property": "C91",
   "status": "proved",
   "theorems": [
    "DK2.C91_small",
    "DK2.C91_insert",
    "DK2.C91_program",
    "DK2.C91_settled",
    "DK2.C91_prune",
    "DK2.C91_restart",
    "DK2.C91_loop",
    "DK2.C91_delay",
    "DK2.C91_delay_settled",
    "DK2.C91_delay_prune",
    "DK2.C91_background_insert",
    "DK2.C91_background_settled",
    "DK2.C91_background_prune",
    "DK2.C91_defects",
    "DK2.floatSizing_calibrated"
   ],
   "note": "The library is any FloatLib with Accurate (relative error 2^-40, integer results exact); from 2^52 edges on the thresholds are taken exactly. Rare deletions under the assumptions of C87-C90, C92, C93, C100 and C101. The defects named are those of C01, C03, C05, C06, C07, C10, C12, C13, C15, C16, C42, C45."
  },
  {
   "property": "C92",
   "status": "partial",
   "theorems": [
    "DK2.C92_refuted",
    "DK2.C92_visits_partial",
    "DK2.C92_ndebug_partial",
    "DK2.C92_visited_partial",
    "DK2.C92_filter_partial",
    "DK2.C92_goes_on_partial"
   ],
   "note": "Refuted with assertions: if the body deletes the edge with which the first occupied level begins while the loop is still in the buffer, the assertion in operator++ fails. Proved: what any loop that ends has done, for every body (C92_visits_partial); the loop ends and is exact for rare deletions with assertions compiled out (C92_ndebug_partial), and in both builds when the body deletes only edges shown already (C92_visited_partial, C92_filter_partial); after deleting old edges the program can go on (C92_goes_on_partial). Assumes MarksOne and that erase keeps the iteration order (KeepsOrder), both shown for the reference and the bit-encoded trees; the tree iterator may show or skip erased edges."
  },
  {
   "property": "C93",
   "status": "proved",
   "theorems": [
    "DK2.C93_restart",
    "DK2.C93_recent_refuted"
   ],
   "note": "Same assumptions as C87 (MarksOne, ForcedPure). session_shows states it for any calibrated thresholds, in particular for floating point (C91). C93_recent_refuted: without the condition on recent edges a save is undefined."
  },
  {
   "property": "C94",
   "status": "partial",
   "theorems": [
    "DK2.C94_refuted",
    "DK2.C94_early",
    "DK2.C94_rank_partial",
    "DK2.C94_any_partial",
    "DK2.C94_default_partial"
   ],
   "note": "Refuted: the convergence test compares with n*convergence and sits inside the loop over the vertices, so that with more than 2/convergence vertices having successors (two million by default) pageRank returns after its first vertex (C94_early) and all the others but its successors keep rank 0. Proved: the bounds alpha^k (n/T+1) and (1+alpha)/(1-alpha)*n*convergence on every insertion history (C94_rank_partial), for the links list_neighbour returns after any history (C94_any_partial), and n/80000 with the default arguments, hence the full statement up to 40000 vertices (C94_default_partial). The field rank of Algorithms carries it to every class and history for which Algorithms is proved (C63, C65, C87, C89, C91-C93). Exact arithmetic; a graph without edges makes the code divide by zero and is not claimed."
  },
  {
   "property": "C95",
   "status": "partial",
   "theorems": [
    "DK2.C95_refuted",
    "DK2.C95_undefined",
    "DK2.C95_delay_refuted",
    "DK2.C95_same_partial",
    "DK2.C95_insert_partial"
   ],
   "note": "Refuted: the copy shares the trees, so a later deletion through the graph shows in the searches of the Algorithm (its own edge counter unchanged) or makes its loop over the edges undefined; with DKtree_delay an insertion shows. Proved for DKtree when only insertions follow, whatever happened before."
  },
  {
   "property": "C96",
   "status": "partial",
   "theorems": [
    "DK2.C96_refuted",
    "DK2.C96_range_partial",
    "DK2.C96_float_partial"
   ],
   "note": "Refuted: the code divides the number of counted triples by m(m-1), m the number of edges. C96_range_partial: the result q on every graph built by insertions (n <= 9999999) is between 0 and 1 with q^2 (m-1) <= 1, never 1 with three edges or more, 0/0 with fewer than two edges. C96_float_partial: computed in float (24 bits, ties to even) the result differs from it by at most its 2^-21th part. Missing: the code does not compute the coefficient."
  },
  {
   "property": "C97",
   "status": "partial",
   "theorems": [
    "DK2.C97_refuted",
    "DK2.C97_early",
    "DK2.C97_rank_partial",
    "DK2.C97_default_partial",
    "DK2.PR.pageRankF_exact",
    "DK2.IEEE.arith_ieee"
   ],
   "note": "Refuted as C94 is, in every arithmetic: two million vertices with successors and pageRank() returns after its first vertex (C97_early). Proved: the bounds of C94 with explicit rounding terms (relative to n/T: 1/1900000 or 1/750000, divided by 1-alpha) for alpha <= 1-10^-6, n <= 9999999, graphs built by insertions; n/45000 by default. The arithmetic is any with the error bounds FArith.IEEE; IEEE.arith, binary64/binary32 with ties to even, meets them. No fused or extended-precision operations."
  },
  {
   "property": "C98",
   "status": "partial",
   "theorems": [
    "DK2.C98_refuted",
    "DK2.C98_empty",
    "DK2.C98_finite_partial",
    "DK2.C98_default_partial"
   ],
   "note": "Refuted: without edges 1.0f/total_nodes is 1/0 and every rank is infinite, for every threshold, number of sweeps and 0 < alpha <= 1 (C98_empty). Proved: on every graph built by insertions with an edge (n <= 9999999, 0 <= alpha <= 1-10^-6, threshold at most 2^500) the machine ranks are finite and equal to those of IEEE.arith, so the bounds of C97 apply. The two zeros of double are one in the model; no fused or extended-precision operations."
  },
  {
   "property": "C99",
   "status": "partial",
   "theorems": [
    "DK2.C99_postfix_partial",
    "DK2.C99_loop_partial",
    "DK2.C99_star",
    "DK2.C99_assign_partial",
    "DK2.C99_assign_finished",
    "DK2.C99_nest_ref",
    "DK2.C99_nest_value_partial",
    "DK2.C99_refuted",
    "DK2.C99_neighbours_postfix_partial",
    "DK2.C99_neighbours_star",
    "DK2.C99_neighbours_nest",
    "DK2.C99_nodes_star"
   ],
   "note": "Refuted: operator++(int) returns the advanced iterator, so that *it++ skips the first element and ends with the end mark (C99_star, C99_neighbours_star, C99_nodes_star); operator= of the edge iterator leaves _i, so that a used iterator assigned one that is in a tree stops after one edge (C99_assign_finished); edge_begin() and neighbour_begin() return references to one member, so that the outer of two nested loops by reference makes one turn (C99_nest_ref, C99_neighbours_nest). Proved: it++ as a statement, assignment from an iterator in the buffer, nested loops with copies. Edges: insertion-only graphs, n <= 9999999; neighbours and vertices: every history."
  }
 ]
}