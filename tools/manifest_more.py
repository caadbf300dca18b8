c("C09","proved",["C09_neighbour_iterator","C09_successors","C09_beyond_int"],"For vertex counts whose numbers fit the iterator's int (n <= 2^31); C09_beyond_int says what is reported beyond.")
c("C10","partial",["C10_edges_partial","C10_quiet_partial","C10_insert_only_partial","C10_refuted","C10_twice_refuted"],"False after a deletion from the buffer (C10_refuted) and on a second loop by reference (C10_twice_refuted); in full on insert-only graphs and on states without an erased buffer slot or an emptied tree.")
c("C11","proved",["C11_node_iterator","C11_beyond_int"],"Vertex counts representable as int; beyond, the loop is empty (C11_beyond_int).")
c("C18","proved",["EHT.C18_find","EHT.C18_key_injective"],"Every call sequence, any table capacity and hash mixing function of the code.")
c("C19","proved",["C19_set","C19_returns"],"Call sequences that return; C19_returns says exactly when a call returns.")
c("C20","proved",["C20_neighbours"],"Every container reached by calls that returned.")
c("C21","proved",["C21_clean"],"Every container reached by calls that returned.")
c("C25","proved",["C25_C26_bfs","C25_C26_bfs_spec"],"Vertex counts that fit int.")
c("C26","proved",["C25_C26_bfs","C25_C26_bfs_spec"],"Vertex counts that fit int.")
c("C27","proved",["C27_dfs","C27_dfs_spec"],"Vertex counts that fit int.")
c("C28","proved",["C28_hash","C28_dktree"],"Any graph whose edge loop lists its edges once (C28_hash), and every DKtree built by insertions (C28_dktree); the int returned is the count modulo 2^32, exact below 2^31.")
c("C29","partial",["C29_partial","C29_refuted"],"False with self-loops (C29_refuted); exact value and agreement without self-loops.")
c("C30","partial",["C30_partial","C30_refuted"],"False: a directed triangle may be counted 0 times (C30_refuted); exact characterisation of the returned number.")
c("C31","proved",["C31_sweep","C31_pageRank"],"Exact arithmetic over any ordered field instead of double.")
c("C22","partial",["C22_roundtrip_partial","C22_insert_only_partial","C22_undefined","C22_ghost_edges","C22_refuted","C22_above_refuted"],"False when a buffered edge was deleted (uninitialised edges are archived: C22_refuted, C22_ghost_edges) and when a reorganisation left a level above max_r (C22_above_refuted); in full for insert-only graphs.")
c("C23","partial",["C23_partial","C23_refuted"],"False: stale level files are loaded (C23_refuted).")
c("C24","partial",["C24_partial","C24_quiet_partial","C24_refuted"],"False for contains when a reorganisation left a level above max_r (C24_refuted); in full without reorganisation.")
c("C46","partial",["C46_partial","C46_refuted"],"False: levels without a file keep the old tree (C46_refuted).")
c("C47","partial",["C47_partial","C47_refuted"],"False: out-of-bounds read when the left buffer is longer (C47_refuted).")
c("C32","partial",["C32_partial","C32_large_partial","C32_sound_partial","C32_refuted"],"False in an NDEBUG build with a small buffer (C32_refuted); exact with assertions enabled, for 162 vertices or more in both builds, and never a spurious edge.")
c("C33","partial",["C33_capacity_partial","C33_large_partial","C33_only_partial","C33_refuted","C33_dropped"],"False on 8 vertices (C33_refuted, C33_dropped); holds when MAXSZ(m,0) >= 6, in particular for 162 vertices or more.")
c("C34","proved",["C34"],"Any insertion history, both builds, every threshold function.")
c("C35","partial",["C35_partial","C35_refuted"],"False: null dereference (C35_refuted); whenever calls return, contains and the count are exact and list_neighbour lists only edges of the graph.")
c("C48","partial",["C48_partial","C48_refuted"],"False after a reorganisation by del_edge (C48_refuted); in full for insertion histories in both builds.")
c("C49","partial",["C49_partial","C49_refuted"],"False (C49_refuted); it fails exactly when the level search finds no level.")
c("C50","partial",["C50_partial","C50_refuted"],"False (C50_refuted); exact condition: levels 0 and 1 of the loaded graph are empty.")
c("C40","proved",["C40","BT.encode_adj"],"Any number of trees, any k >= 2, any height, any sequence of positive budgets. The only size condition is the exact one: the bit vectors of the result are not larger than the 32-bit estimate of the program; C83 shows that the program writes out of bounds otherwise.")
c("C41","partial",["DKM.C41_partial","DKM.C41_last_partial","DKM.C41_refuted"],"False: eight of 18 inserted edges are invisible (C41_refuted). Proved: exactly the pending batch can be hidden, at most MAXSZ(m,0)+1 edges; the last inserted edge is always visible.")
c("C51","proved",["DKM.C51","DKM.C51_sound","DKM.C51_k3"],"Every k; every history for k = 2, 4, 8, 16, and histories within the 32-bit size estimate for the other k (Cond); soundness also with NDEBUG, exactness also with NDEBUG for k >= 3 (C51_k3).")
c("C52","partial",["DKM.C52_partial","DKM.C52_sound_partial","DKM.C52_refuted","DKM.C52_refuted_pending"],"False on the empty graph (C52_refuted) and while a merge is pending (C52_refuted_pending); C52_partial gives the exact multiplicities.")
c("C53","partial",["DKM.C53_bounds_partial","DKM.C53_distinct_partial","DKM.C53_refuted"],"False after re-inserting a hidden edge (C53_refuted); exact when no edge is inserted twice, bounds always.")
c("C54","partial",["DKM.C54_k3_partial","DKM.C54_k2_partial","DKM.C54_outcome_partial","DKM.C54_any_partial","DKM.C54_refuted"],"False for k = 2: 435 distinct insertions on 128 vertices stop at the assertion (C54_refuted). Proved for k >= 3 and for k = 2 below MAXSZ(n,4) insertions; the assertion is the only abnormal outcome while the 32-bit size estimate is large enough (beyond it: C85).")
c("C55","partial",["DKM.C55_noop_partial","DKM.C55_refuted"],"False: del_edge is empty (C55_refuted, C55_noop_partial).")
c("C36","partial",["C36_no_loss_partial","C36_no_readd_partial","C36_calm_partial","C36_refuted","C36_count_refuted"],"False for both classes: an edge inserted again while the worker holds it survives its deletion (C36_refuted) and is counted twice (C36_count_refuted). On every history and schedule nothing is lost and only such edges are wrong; exact when no edge is inserted while present, or when every modifying call is made with no merge pending.")
c("C37","partial",["C37_sound_partial","C37_last_partial","C37_refuted","BG.C37_neighbours_partial","BG.C37_last_neighbour_partial","BG.C37_neighbours_refuted"],"False for both classes: the buffered edges are invisible until the worker is done (C37_refuted). On every history and schedule contains returns, is never wrongly true except for edges of C36_refuted, is stable, and sees the last inserted edge; list_neighbour returns and agrees with contains in both directions.")
c("C38","partial",["C38_partial","C38_accesses","C38_refuted"],"False for both classes: list_neighbour reads max_r while the worker writes it (C38_refuted). add_edge, del_edge and contains are race free on every history and schedule; the declared accesses are proved complete (C38_accesses).")
c("C56","proved",["C56_insertions","C56_insertions_real","C56_reachable"],"Every number of vertices >= 2 (the constructor is undefined for 1), both classes, every schedule.")
c("C57","proved",["C57_merge_finishes","C57_insertions"],"Both classes, every history and schedule.")
c("C39","partial",["C39_sequential_partial","C39_refuted","C39_ctor_refuted","C39_worker_refuted","C39_dtor_refuted","C39_zombie_refuted"],"False: the flags are global (four scenarios refuted). Proved when the graphs are used one after the other and the first worker has ended before the second graph is constructed.")
c("C58","partial",["C58_wait","C58_partial","C58_returns","C58_refuted"],"Proved for DKtree_background_wait (C58_wait); false for DKtree_background, whose flags are members (C58_refuted); in both the worker touches no plain member and ends within two steps (C58_partial).")
c("C59","partial",["C59_idle_partial","C59_insert_partial","C59_saved_partial","C59_levels_partial","C59_refuted","C59_race_refuted"],"False for both classes while a merge is pending: the header is written before the wait (C59_refuted, C59_race_refuted); exact when nothing is pending at the start. In every case the files hold exactly the inserted edges (C59_saved_partial), but the header may not tell load to read them.")
c("C60","partial",["C60_insert_partial","C60_delete_partial","C60_refuted"],"False for deletions: copies share trees, deleting through one removes the edge from the other without changing its count (C60_refuted; C60_delete_partial says exactly which edges). Insertions on both sides never interfere (C60_insert_partial).")
c("C61","proved",["C61_independent"],"Any tree implementation and thresholds, no hypothesis on the histories.")
c("C62","proved",["C62_snapshot","C62_total"],"Insertions in the loop body; deletions in the body are not covered. C62_total: graphs built by insertions, n <= 9999999 (beyond it the level array overflows). C62_snapshot: every history.")
c("C63","proved",["C63_neighbour","C63_consistent","C63_assert","C63_large"],"C63_consistent is the full edge-loop and Algorithm claim in both builds (2 <= n <= 9999999); C63_neighbour the neighbour loop on every history; C63_assert and C63_large relate it to the inserted edges.")
c("C64","proved",["C64_no_lost_wakeup","C64_calls_end","C64_infinite","C64_insertions","C64_insertions_real","C64_destructor","C64_refines","C64_refines_calls","C64_complete"],"Lock, test, sleep, wake, change, notify and unlock are separate steps. C64_calls_end: every history; C64_insertions, C64_destructor: nothing fails after insertions. C64_refines and C64_complete: the model with atomic sections and busy waits (C36-C38, C56-C59) has the same behaviours.")
c("C65","partial",["BG.C65_idle_partial","BG.C65_calm_partial","BG.C65_insert_partial","BG.C65_sound_partial","BG.C65_levels","BG.C65_accesses","BG.C65_refuted","BG.C65_race_refuted","BG.C65_dup_refuted"],"False for both classes: while a merge is pending the loops miss edges and race with the worker (C65_refuted, C65_race_refuted); an edge re-inserted meanwhile is visited twice even later (C65_dup_refuted). Exact and race free when nothing is pending and no edge is inserted while present, or when every modifying call was made with no merge pending (no erased buffer slot: always after insertions). In every case only inserted edges are visited (C65_sound_partial).")
c("C66","proved",["C66_contract","C66_insert","C66_history","C66_bits"],"Every arity k >= 2 and every size. C66_contract discharges the whole contract K2Impl.Lawful, so every theorem about lawful trees applies. The pair (1,1) is excluded in C66_history because DKtree itself mishandles it (C01). union is specified by its edges here; union_support is C40.")
c("C67","partial",["DKM.C67_idle_partial","DKM.C67_triangles_partial","DKM.C67_sound_partial","DKM.C67_refuted","DKM.C67_triangles_refuted"],"False while a merge is pending: the loops miss the edges being merged (C67_refuted). With no merge pending the loops, bfs, dfs and pageRank are right when no edge is lost (assertions enabled or k >= 3); count_triangles_dummy_hash counts the triangles through the edge that triggered the last merge twice (C67_triangles_partial, C67_triangles_refuted). In every state the loops end and visit only inserted edges (C67_sound_partial).")
c("C68","partial",["DKM.C68_idle_partial","DKM.C68_pending_partial","DKM.C68_neighbour_partial","DKM.C68_lost","DKM.C68_refuted","DKM.C68_reload_refuted"],"False while a merge is pending: what is being merged is not saved, although counted and although the loaded graph compares equal (C68_lost); loading into an object with a pending merge leaves contains answering from the old graph (C68_reload_refuted). With no merge pending the loaded graph is indistinguishable by contains, counts, edge loops and the outcome of every further call (C68_idle_partial); list_neighbour differs in one entry (C68_neighbour_partial). In every state it holds exactly what the iterators saw (C68_pending_partial).")
c("C69","partial",["DKM.C69_assert_partial","DKM.C69_k3_partial","DKM.C69_k2_partial","DKM.C69_loss","DKM.C69_refuted"],"False with NDEBUG (the Makefile's flags) and k = 2: every history of distinct insertions that would fail the assertion loses an edge for good although it is still counted (C69_loss, C69_refuted). Proved with assertions, for k >= 3, and for k = 2 below MAXSZ(n,4) insertions.")
c("C70","partial",["C70_fits_partial","C70_refuted"],"False once an insertion in the loop flushes the buffer: the iterator then reads reused slots and reports a vertex that is no neighbour (C70_refuted). While the insertions fit into the buffer the loop visits exactly the old neighbours, each once, and changes the graph as the same insertions outside a loop (n >= 8).")
c("C71","partial",["C71_visited_partial","C71_refuted"],"False when a round deletes the visited edge and another one: the deleted edge is still visited (C71_refuted). Deleting (a selection of) the visited edges is exact while no edge has left the buffer (n >= 8); what an iterator of the external k2_tree does after erase is unspecified.")
c("C72","proved",["C72_amortized","C72_weight","DK.addEdgeC_fst"],"Thresholds read over the reals; the counted add_edge is proved to be add_edge (addEdgeC_fst). Cost is counted in edges of the trees built, not in machine steps of the external k2_tree.")

c("C73", "proved", ["C73_clear"], "For every object, directory and later graph of the kind C22 covers.")
c("C74", "partial", ["C74_refuted", "C74_lost", "C74_first_partial", "C74_sound_partial"],
  "Refuted: after a crash between two files the graph read back can lack an edge that both the old and the new graph have. Proved: first use of a directory always throws after a crash; otherwise no edge is invented.")
c("C75", "partial", ["C75_refuted", "C75_partial"],
  "Refuted: a level file removed before 0.kt is silently missing. Proved: throws iff 0.kt is gone, never an extra edge, same graph if no level file is gone.")
c("C76", "proved", ["C76_work", "C76_weight", "DKD.addEdgeC_fst"],
  "The counted add_edge is proved to be add_edge (addEdgeC_fst). Work is counted in unions and edges written, not in machine steps of the external k2_tree; the first clause holds of every state.")
c("C77", "proved", ["C77_share", "C77_copies", "DKM.addEdgeC_fst"],
  "Within the 32-bit limit on the size estimate (Ctx), both builds for the upper bounds, assertions enabled for C77_copies; thresholds read over the reals. The counted add_edge is proved to be add_edge. Allocation of the result bit vectors is not counted.")
c("C78", "partial", ["C78_refuted", "C78_ignored", "C78_fresh_partial", "C78_insert_partial"],
  "Refuted: merges are done in place in trees the copy shares, so an insertion through the copy appears in the original. Proved: independence when the copied graph holds no tree yet; for any number of copies and insertions no undefined behaviour, no lost edge (assertions enabled) and no edge nobody inserted.")
c("C79", "proved", ["C79_independent"], "Both builds, every sizing, deletions included.")
c("C80", "partial", ["C80_refuted", "wCopy_run", "C80_idle_partial"],
  "Refuted when a merge is in progress: the copy finishes it in the array of the original, whose next insertion dereferences a null pointer. Proved for every program (any number of copies) that copies only graphs without a merge in progress, every k, height function and threshold function, both builds.")
c("C81", "proved", ["C81_dktree", "C81_history", "C81_delay", "C81_background", "C81_munro"],
  "For any threshold functions with MAXSZ(m,8) = 2m (exact in double arithmetic); DKtree_delay and DKtree_delay_munro with assertions enabled, DKtree_background and DKtree_delay_munro with no merge pending; deletions only while none triggers a reorganisation (C81_history).")
c("C82", "proved", ["C82_dktree", "C82_call", "C82_no_escape", "C82_delay", "DK.addEdgeX_spec", "DKD.addEdgeX_spec"],
  "addEdgeX is add_edge with the object left at the throw (addEdgeX_spec). For DKtree_delay with assertions enabled; allocation failures are not modelled.")
c("C83","partial",["C83_refuted","C83_iff_partial","C40_exact","C40_over"],"Refuted in general: for k = 16 the 32-bit estimate is 16843008 bits, and merging one edge into a tree of 65794 edges in different blocks of 65536 vertices writes out of bounds. C83_iff_partial (and C40_exact): for every arity whose square divides 2^32 (the powers of two up to 2^16), every height and every collection of trees, a merge with enough budget ends with the right result exactly when the result is not larger than the estimate, and writes out of bounds otherwise.")
c("C84","proved",["C84_independent","C84_idle"],"Any number of graphs, constructed at any point of the program, both builds, any parameters. C84_idle adds copies of graphs with no merge in progress. All graphs of the program have the same arity k.")
c("C85","partial",["C85_refuted","C85_over","C85_limit_partial","C85_small_partial","C85_right_partial","DKM.C54_any_partial"],"Refuted: with arity 16 every history of 540000 insertions in different 16 x 16 blocks of 65536 vertices is undefined (C85_over). Proved: no undefined behaviour up to explicit limits for every k from 2 to 16 (C85_limit_partial) and for any number of insertions on small graphs (C85_small_partial); for powers of two, beyond the limit, a history that returns is right (C85_right_partial).")
c("C86","proved",["C86_program","C86_equal"],"Any lawful tree implementation whose adj_forced changes nothing (ForcedPure, the implementation of k2_tree assumed throughout), thresholds of the code. Programs without del_edge, without saving over an older save and without loading into a used object: each of these is refuted separately (C01, C23, C46). C86_equal is about programs that compare at their end; operator== on buffers of different sizes is undefined (C47).")
c("C87","proved",["C87_settled","C87_eighth","C87_saved","C87_recent_refuted"],"For trees that mark exactly one edge per successful erase (MarksOne, beyond the contract Lawful; shown for the reference trees and the bit-encoded trees) and ForcedPure. Loops and algorithms for n <= 9999999 (limit of the edge iterator). C87_recent_refuted: without condition (b) the claim is false.")
c("C88","proved",["C88_prune","C88_build_prune"],"Same assumptions as C87. Edge loops, serialize and further insertions after such a pruning are not claimed: they are refuted in C10, C22 and C12.")
c("C89","proved",["C89_settled","C89_eighth","C89_recent_refuted"],"Trees mark exactly one edge per successful erase (MarksOne). The eighth of the size bounds the buffer's capacity (C89_settled takes any bound B >= 8 of it). Loops and algorithms for n <= 9999999. C89_recent_refuted: without condition (b) the claim is false, in both builds.")
c("C90","proved",["C90_prune","C90_build_prune"],"C90_prune: 162 or more vertices, both builds. C90_build_prune: any n >= 2, assertions enabled (without them insertions can be dropped, C33). MarksOne as in C89. Further insertions, edge loops and serialize after such a pruning are not claimed.")
c("C91","proved",["C91_small","C91_insert","C91_program","C91_settled","C91_prune","C91_restart","C91_loop","C91_delay","C91_delay_settled","C91_delay_prune","C91_background_insert","C91_background_settled","C91_background_prune","C91_defects","floatSizing_calibrated"],"The library is any FloatLib with Accurate (relative error 2^-40, integer results exact); from 2^52 edges on the thresholds are taken exactly. Rare deletions under the assumptions of C87-C90, C92, C93, C100 and C101. The defects named are those of C01, C03, C05, C06, C07, C10, C12, C13, C15, C16, C42, C45.")
c("C92","partial",["C92_refuted","C92_visits_partial","C92_ndebug_partial","C92_visited_partial","C92_filter_partial","C92_goes_on_partial"],"Refuted with assertions: if the body deletes the edge with which the first occupied level begins while the loop is still in the buffer, the assertion in operator++ fails. Proved: what any loop that ends has done, for every body (C92_visits_partial); the loop ends and is exact for rare deletions with assertions compiled out (C92_ndebug_partial), and in both builds when the body deletes only edges shown already (C92_visited_partial, C92_filter_partial); after deleting old edges the program can go on (C92_goes_on_partial). Assumes MarksOne and that erase keeps the iteration order (KeepsOrder), both shown for the reference and the bit-encoded trees; the tree iterator may show or skip erased edges.")
c("C93","proved",["C93_restart","C93_recent_refuted"],"Same assumptions as C87 (MarksOne, ForcedPure). session_shows states it for any calibrated thresholds, in particular for floating point (C91). C93_recent_refuted: without the condition on recent edges a save is undefined.")
c("C94","partial",["C94_refuted","C94_early","C94_rank_partial","C94_any_partial","C94_default_partial"],"Refuted: the convergence test compares with n*convergence and sits inside the loop over the vertices, so that with more than 2/convergence vertices having successors (two million by default) pageRank returns after its first vertex (C94_early) and all the others but its successors keep rank 0. Proved: the bounds alpha^k (n/T+1) and (1+alpha)/(1-alpha)*n*convergence on every insertion history (C94_rank_partial), for the links list_neighbour returns after any history (C94_any_partial), and n/80000 with the default arguments, hence the full statement up to 40000 vertices (C94_default_partial). The field rank of Algorithms carries it to every class and history for which Algorithms is proved (C63, C65, C87, C89, C91-C93). Exact arithmetic; a graph without edges makes the code divide by zero and is not claimed.")
c("C95","partial",["C95_refuted","C95_undefined","C95_delay_refuted","C95_same_partial","C95_insert_partial"],"Refuted: the copy shares the trees, so a later deletion through the graph shows in the searches of the Algorithm (its own edge counter unchanged) or makes its loop over the edges undefined; with DKtree_delay an insertion shows. Proved for DKtree when only insertions follow, whatever happened before.")
c("C96","partial",["C96_refuted","C96_range_partial","C96_float_partial"],"Refuted: the code divides the number of counted triples by m(m-1), m the number of edges. C96_range_partial: the result q on every graph built by insertions (n <= 9999999) is between 0 and 1 with q^2 (m-1) <= 1, never 1 with three edges or more, 0/0 with fewer than two edges. C96_float_partial: computed in float (24 bits, ties to even) the result differs from it by at most its 2^-21th part. Missing: the code does not compute the coefficient.")
c("C97","partial",["C97_refuted","C97_early","C97_rank_partial","C97_default_partial","PR.pageRankF_exact","IEEE.arith_ieee"],"Refuted as C94 is, in every arithmetic: two million vertices with successors and pageRank() returns after its first vertex (C97_early). Proved: the bounds of C94 with explicit rounding terms (relative to n/T: 1/1900000 or 1/750000, divided by 1-alpha) for alpha <= 1-10^-6, n <= 9999999, graphs built by insertions; n/45000 by default. The arithmetic is any with the error bounds FArith.IEEE; IEEE.arith, binary64/binary32 with ties to even, meets them. No fused or extended-precision operations.")
c("C98","partial",["C98_refuted","C98_empty","C98_finite_partial","C98_default_partial"],"Refuted: without edges 1.0f/total_nodes is 1/0 and every rank is infinite, for every threshold, number of sweeps and 0 < alpha <= 1 (C98_empty). Proved: on every graph built by insertions with an edge (n <= 9999999, 0 <= alpha <= 1-10^-6, threshold at most 2^500) the machine ranks are finite and equal to those of IEEE.arith, so the bounds of C97 apply. The two zeros of double are one in the model; no fused or extended-precision operations.")

c("C99","partial",["C99_postfix_partial", "C99_loop_partial", "C99_star", "C99_assign_partial", "C99_assign_finished", "C99_nest_ref", "C99_nest_value_partial", "C99_refuted", "C99_neighbours_postfix_partial", "C99_neighbours_star", "C99_neighbours_nest", "C99_nodes_star"],"Refuted: operator++(int) returns the advanced iterator, so that *it++ skips the first element and ends with the end mark (C99_star, C99_neighbours_star, C99_nodes_star); operator= of the edge iterator leaves _i, so that a used iterator assigned one that is in a tree stops after one edge (C99_assign_finished); edge_begin() and neighbour_begin() return references to one member, so that the outer of two nested loops by reference makes one turn (C99_nest_ref, C99_neighbours_nest). Proved: it++ as a statement, assignment from an iterator in the buffer, nested loops with copies. Edges: insertion-only graphs, n <= 9999999; neighbours and vertices: every history.")
c("C100","proved",["C100_calls","C100_reachable","C100_exact","C100_recent_refuted"],"Any thresholds with Sizing.Calibrated (realSizing_calibrated: those of the code, up to 2^64 edges); trees mark exactly one edge per successful erase (MarksOne). B is any bound of the buffer's capacity for the sizes met. Loops and algorithms for n <= 9999999. C100_recent_refuted: without the condition on recent edges the claim is false (the next insertion writes out of bounds).")
c("C101","proved",["C101_calls","C101_reachable","C101_exact"],"Assumptions on thresholds and trees as in C100. Further insertions and edge loops after such a pruning are not claimed (a buffered edge may have been erased).")
c("C102","partial",["C102_refuted","C102_clash","C102_swapped","C102_wrong","C102_alone_partial","C102_inserts_partial","C102_settled_partial","C102_delay_partial"],"Refuted: two threads that loop over the neighbours of different vertices assign the same member; one of them then visits the neighbours of the other's vertex (C102_swapped), and every pair of clashing questions races at its first step (C102_clash). Proved for threads whose questions do not clash. Assumed of libraries: trees have member iterators as the reference type returned by neighbour_begin shows, other tree queries are read-only, operator[] of unordered_map on a present key writes nothing, reference counts are atomic.")
c("C103","partial",["C103_refuted","C103_member_partial","C103_idle_partial","C103_exact_partial","C103_again_partial"],"Refuted while a merge is pending (list_neighbour reads max_r while the worker raises it). Proved: membership and counters on every history and schedule (C103_member_partial), every query with no merge pending (C103_idle_partial, exact if no edge was inserted while present: C103_exact_partial), and that what one thread has seen all see later (C103_again_partial). Modifying calls concurrent with readers are not claimed: they race on the buffer. Iterator loops of the background classes are not in the threads (C102 gives their clash).")
c("C104","partial",["C104_refuted","C104_clash","C104_deletes","C104_accesses","C104_insert_partial"],"Refuted: two copies share trees, so two loops over neighbours race (C104_clash) and a deletion through one copy is seen by the thread that owns another (C104_deletes). Proved for any number of threads that delete nothing and of which at most one runs over neighbours and at most one over edges. C104_accesses: a call of such a thread leaves every other copy and every existing tree as it was. A call is one stretch; the copies exist before the threads start; adj_forced and unionOp are assumed to write nothing in the trees they read, as ForcedPure says, and reference counts to be atomic.")

c("C105","proved",["Tools.C105_create","Tools.C105_runs","Tools.C105_build_edges","Tools.C105_add_mean"],"Files are lists of characters; getline, split and stoi are modelled on all inputs. C105_add_mean is the graph add_mean builds, which ignores marks. Left out: time measuring and printing, atoi of the arguments, the loops of add.cpp that time build_edges' list on each class (C01 ff. say what they build).")
c("C106","partial",["Tools.C106_refuted","Tools.C106_prune_partial"],"Refuted by a dataset of three edges and a list of two (undefined behaviour in the rebuild). Proved when at most one in seven of the distinct edges of the dataset is listed; no bound on file sizes.")
c("C107","partial",["Tools.C107_refuted","Tools.C107_fields_partial","Tools.C107_exact","Tools.C107_big","Tools.C107_negative"],"Refuted by an empty line. Proved for files whose lines have at least two blanks; C107_exact says exactly which files are undefined; C107_big and C107_negative give the treatment of numbers that are no int and of negative ones.")

c("C108","partial",["Tools.C108_refuted","Tools.C108_munro_refuted","Tools.C108_tree","Tools.C108_delay_partial","Tools.C108_munro_partial","Tools.C108_background"],"Refuted: 25 edges of 8 vertices stop DKtree_delay, 435 edges of 128 vertices DKtree_delay_munro, at an assertion. Proved in full for versions 1 (all datasets), 2 and 5 (distinct edges); version 3 from 162 vertices on; version 4 below MAXSZ(n,4) distinct edges.")
c("C109","proved",["C109_amortized","C109_weight","fmaxsz_ratio"],"The library is any FloatLib with A.Accurate (DESIGN, C91). C109_weight states the bound about the unmodified program over trees that remember what was written to make them. Cost counted in edges of the trees built, as in C72.")
c("C110","proved",["C110_reorganisations","C110_reorganisations_float","C110_work","C110_work_float"],"reorgs lists get_number_edges() right after each del_edge that enters the rebuild branch (DKtree.hpp:207). Trees mark at most one edge per erase (MarksOne). C110_work: the edges written into trees by all deletions, at most nine per edge of a reorganised graph, as trees that carry their cost (weigh K) show. The exact thresholds, and any FloatLib with A.Accurate for fewer than 2^52 calls.")
c("C111","partial",["C111_lasts","C111_delay_refuted"],"C111_lasts: DKtree, in full. Refuted for DKtree_delay: its rebuild merges the first levels that have room and leaves the tree with the marked edges as it is; after 11 insertions on 5 vertices and 4 deletions, every further deletion reorganises the graph. Not modelled here: the background variants.")
