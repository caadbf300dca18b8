{"id": "C01", "title": "contains tracks the add/del history", "statement": "After any sequence of add_edge/del_edge calls that returns normally, contains(x,y) is true exactly when the last call naming (x,y) was add_edge(x,y).", "quantifier": "every vertex count, every finite history of in-range add_edge/del_edge calls, every queried pair", "why_tests_cant": "The answer depends on where merges and rebuilds fall in the history; a test fixes a handful of histories and container layouts.", "anchors": ["include/dktree/DKtree.hpp: add_edge, del_edge, contains"]}
{"id": "C02", "title": "insert-only graphs are totally correct", "statement": "On a graph built by add_edge calls only, every add_edge returns normally (no exception, no out-of-bounds access), contains reports exactly the added edges and get_number_edges is the number of distinct edges added.", "quantifier": "every vertex count >= 2, every finite sequence of in-range add_edge calls, with the thresholds the code computes", "why_tests_cant": "Thresholds depend on log powers of n; overflow of a level or of the buffer may appear only at sizes no test reaches.", "anchors": ["include/dktree/DKtree.hpp: add_edge, contains, get_number_edges", "include/dktree/Container0.hpp: insert, resize", "include/dktree/utils.hpp: MAXSZ"]}
{"id": "C03", "title": "get_number_edges counts the edges", "statement": "After any history get_number_edges() equals the number of distinct edges currently in the graph.", "quantifier": "every finite history of add_edge/del_edge calls", "why_tests_cant": "A drift appears only after particular deletion patterns trigger a rebuild.", "anchors": ["include/dktree/DKtree.hpp: get_number_edges, add_edge, del_edge"]}
{"id": "C04", "title": "adding a present edge changes nothing", "statement": "add_edge(x,y) on a graph that contains (x,y) leaves every observation (contains, list_neighbour, get_number_edges) unchanged.", "quantifier": "every reachable state, every contained pair", "why_tests_cant": "Needs every storage location the edge may be in.", "anchors": ["include/dktree/DKtree.hpp: add_edge, contains_forced"]}
{"id": "C05", "title": "deleting an absent edge changes nothing", "statement": "del_edge(x,y) on a graph not containing (x,y) leaves contains unchanged for every pair and get_number_edges unchanged.", "quantifier": "every reachable state, every absent pair", "why_tests_cant": "del_edge may rebuild the whole structure even when the edge is absent; only some states trigger it.", "anchors": ["include/dktree/DKtree.hpp: del_edge"]}
{"id": "C06", "title": "add_edge and del_edge act only on the named edge", "statement": "add_edge(x,y) makes (x,y) present and del_edge(x,y) makes it absent; no other pair's membership changes.", "quantifier": "every reachable state, every pair, every other pair", "why_tests_cant": "Merges and rebuilds move every edge; loss of an unrelated edge shows only in particular layouts.", "anchors": ["include/dktree/DKtree.hpp: add_edge, del_edge"]}
{"id": "C07", "title": "list_neighbour returns exactly the successors", "statement": "list_neighbour(x) contains y iff (x,y) is an edge, and contains no y twice.", "quantifier": "every reachable state, every vertex x", "why_tests_cant": "An edge stored twice or in a level above the recorded maximum is only visible for special histories.", "anchors": ["include/dktree/DKtree.hpp: list_neighbour, max_r"]}
{"id": "C08", "title": "neigh_it visits the same sequence as list_neighbour", "statement": "neigh_it(x,f) calls f exactly on the elements of list_neighbour(x), in the same order.", "quantifier": "every reachable state, every vertex, every callback", "why_tests_cant": "Equality of two traversals over all linked-list shapes.", "anchors": ["include/dktree/DKtree.hpp: neigh_it, list_neighbour", "include/dktree/Container0.hpp: neigh_it, list_neighbours"]}
{"id": "C09", "title": "neighbour iteration agrees with list_neighbour", "statement": "Iterating neighbour_begin(x) until neighbour_end() terminates and yields list_neighbour(x) in order.", "quantifier": "every reachable state, every vertex, any pattern of empty levels, vertex numbers that fit the int the iterator returns", "why_tests_cant": "The iterator is a four-way state machine over buffer and levels; tests visit few transitions.", "anchors": ["include/dktree/DKtreeNeighbourIterator.hpp: operator++", "include/dktree/Container0NeighIterator.hpp: operator++", "include/dktree/DKtree.hpp: neighbour_begin, neighbour_end"]}
{"id": "C10", "title": "edge iteration visits every edge exactly once", "statement": "Iterating edge_begin() until edge_end() terminates and yields every edge of the graph exactly once and nothing else.", "quantifier": "every reachable state", "why_tests_cant": "Depends on deleted slots in the buffer, on empty levels and on the sentinel value; tests use a buffer without deletions.", "anchors": ["include/dktree/DKtreeEdgeIterator.hpp: DKtreeEdgeIterator, operator++", "include/dktree/DKtree.hpp: edge_begin, edge_end"]}
{"id": "C11", "title": "node iteration visits 0..n-1 in order", "statement": "Iterating node_begin() until node_end() yields 0,1,...,n-1 and then stays at the end.", "quantifier": "every vertex count that fits the int the iterator counts with", "why_tests_cant": "Unbounded vertex count, including the int boundary.", "anchors": ["include/dktree/DKtreeNodeIterator.hpp: operator++", "include/dktree/DKtree.hpp: node_begin, node_end"]}
{"id": "C12", "title": "add_edge never touches memory out of bounds", "statement": "No history of in-range add_edge/del_edge calls makes add_edge index its vectors out of bounds or dereference null.", "quantifier": "every finite history", "why_tests_cant": "The out-of-bounds access needs a full buffer with deleted slots at the moment of the insert.", "anchors": ["include/dktree/DKtree.hpp: add_edge", "include/dktree/Container0.hpp: insert, resize, erase"]}
{"id": "C13", "title": "add_edge accepts every legal edge", "statement": "No history of in-range add_edge/del_edge calls makes add_edge throw 'collection too big'.", "quantifier": "every finite history", "why_tests_cant": "Depends on the interplay of deleted-but-stored edges with floating thresholds.", "anchors": ["include/dktree/DKtree.hpp: add_edge", "include/dktree/utils.hpp: MAXSZ, TAU"]}
{"id": "C14", "title": "insertion order is irrelevant", "statement": "Two add_edge sequences that are permutations of each other (or have the same set of edges) give graphs with the same contains answers, the same edge count and the same neighbour sets.", "quantifier": "every pair of sequences with equal edge sets", "why_tests_cant": "Factorially many orders.", "anchors": ["include/dktree/DKtree.hpp: add_edge, contains, list_neighbour, get_number_edges"]}
{"id": "C15", "title": "del_edge then add_edge / add_edge then del_edge restore membership", "statement": "Adding a new edge and deleting it, or deleting a present edge and adding it back, restores every contains answer.", "quantifier": "every reachable state, every pair", "why_tests_cant": "Requires reasoning across merges triggered by the pair of calls.", "anchors": ["include/dktree/DKtree.hpp: add_edge, del_edge, contains"]}
{"id": "C16", "title": "rebuild preserves the graph", "statement": "When del_edge reorganises the levels because too many stored edges are deleted, the set of edges, the edge count and the neighbour lists are those of the graph minus the deleted edge.", "quantifier": "every reachable state in which the reorganisation triggers", "why_tests_cant": "The rebuild uses edge (1,1) as filler; only graphs involving (1,1) or an empty buffer expose it.", "anchors": ["include/dktree/DKtree.hpp: del_edge"]}
{"id": "C17", "title": "the vertex count never changes", "statement": "get_number_nodes() is the constructor argument after any history.", "quantifier": "every history", "why_tests_cant": "universal over histories", "anchors": ["include/dktree/DKtree.hpp: get_number_nodes"]}
{"id": "C18", "title": "EdgeHashTable is a finite map keyed by edges", "statement": "After any sequence of insert/erase/clear, find(x,y) is the last inserted index, or -1 when absent; contains agrees with find; the 64-bit key used for hashing is injective on edges.", "quantifier": "every operation sequence, every pair of 32-bit coordinates", "why_tests_cant": "All key pairs cannot be enumerated.", "anchors": ["include/dktree/EdgeHashTable.hpp: insert, find, contains, erase, clear, Hash::edge_to_uint64"]}
{"id": "C19", "title": "Container0 is a set with insertion order", "statement": "After any sequence of insert/erase calls that returns normally, contains is membership, size is the number of members, erase reports whether the edge was present.", "quantifier": "every operation sequence", "why_tests_cant": "Index bookkeeping (free list, hash map, tombstones) must agree in all states.", "anchors": ["include/dktree/Container0.hpp: insert, erase, contains, size"]}
{"id": "C20", "title": "Container0 lists neighbours most recent first", "statement": "list_neighbours(x) terminates, never leaves its vectors and returns the successors of x in reverse insertion order; neighbour_begin..neighbour_end yields the same sequence.", "quantifier": "every operation sequence, every x", "why_tests_cant": "Doubly linked list surgery has many shapes.", "anchors": ["include/dktree/Container0.hpp: list_neighbours, neigh_it, neighbour_begin", "include/dktree/Container0NeighIterator.hpp"]}
{"id": "C21", "title": "Container0::clean empties the buffer", "statement": "After clean() no edge is present, size is 0, every neighbour list is empty and the capacity is unchanged.", "quantifier": "every reachable container state", "why_tests_cant": "universal over states", "anchors": ["include/dktree/Container0.hpp: clean"]}
{"id": "C22", "title": "serialize then load round-trips", "statement": "Loading a directory just written by serialize into a default-constructed graph gives a graph with the same edge set, edge count, vertex count and neighbour lists, and one that compares equal (operator==) to the original when the buffer has no deleted slot.", "quantifier": "every reachable graph, clean target directory", "why_tests_cant": "All states, including tombstones in the buffer.", "anchors": ["include/dktree/DKtree.hpp: serialize, load, operator==", "include/dktree/Container0.hpp: save, load"]}
{"id": "C23", "title": "serialize overwrites older data in the directory", "statement": "Serializing into a directory that holds an earlier serialization and loading it back gives the newly serialized graph.", "quantifier": "every pair of graphs", "why_tests_cant": "Requires particular pairs of level layouts.", "anchors": ["include/dktree/DKtree.hpp: serialize, load"]}
{"id": "C24", "title": "operator== implies equal behaviour", "statement": "Two graphs that compare equal answer contains and list_neighbour identically; every graph equals itself.", "quantifier": "every pair of reachable graphs", "why_tests_cant": "All pairs of states.", "anchors": ["include/dktree/DKtree.hpp: operator==", "include/dktree/Container0.hpp: operator=="]}
{"id": "C25", "title": "BFS returns the reachable vertices, each once", "statement": "bfs(root) terminates and returns exactly the vertices reachable from root along the edges list_neighbour reports, each exactly once, root first.", "quantifier": "every history after which the graph is usable, every in-range root, vertex counts that fit int", "why_tests_cant": "All graphs.", "anchors": ["include/algorithm/Algorithm.hpp: bfs"]}
{"id": "C26", "title": "BFS order is by distance", "statement": "Vertices appear in the result of bfs in non-decreasing order of their shortest-path distance from root along the edges list_neighbour reports.", "quantifier": "every history after which the graph is usable, every in-range root, vertex counts that fit int", "why_tests_cant": "All graphs.", "anchors": ["include/algorithm/Algorithm.hpp: bfs"]}
{"id": "C27", "title": "DFS returns the reachable vertices, each once", "statement": "dfs(root) terminates and returns exactly the vertices reachable from root along the edges list_neighbour reports, each exactly once, root first.", "quantifier": "every history after which the graph is usable, every in-range root, vertex counts that fit int", "why_tests_cant": "All graphs.", "anchors": ["include/algorithm/Algorithm.hpp: dfs"]}
{"id": "C28", "title": "count_triangles_dummy_hash counts directed triangles", "statement": "count_triangles_dummy_hash() is the number of ordered triples (a,b,c) of pairwise distinct vertices with edges a->b, b->c, c->a (three times the number of directed 3-cycles).", "quantifier": "every graph whose edge loop, list_neighbour and contains agree on one edge set", "why_tests_cant": "All graphs.", "anchors": ["include/algorithm/Algorithm.hpp: count_triangles_dummy_hash"]}
{"id": "C29", "title": "count_triangles_dummy agrees with the hash version", "statement": "count_triangles_dummy() returns the same number as count_triangles_dummy_hash().", "quantifier": "every graph whose edge loop, list_neighbour and contains agree on one edge set", "why_tests_cant": "Self-loops break it; the tests have none.", "anchors": ["include/algorithm/Algorithm.hpp: count_triangles_dummy"]}
{"id": "C30", "title": "count_triangles counts triangles", "statement": "count_triangles() returns the number of triangles of the graph.", "quantifier": "every graph whose edge loop, list_neighbour and contains agree on one edge set", "why_tests_cant": "One graph in the tests.", "anchors": ["include/algorithm/Algorithm.hpp: count_triangles, is_heavy_hitter, minor_degree"]}
{"id": "C31", "title": "pageRank mass", "statement": "One full pageRank sweep maps total mass M to alpha*M + (1-alpha); with no dangling vertex the ranks sum to 1 after every full sweep (up to n*convergence when the convergence test stops a sweep); with T>0 vertices having successors the mass after k sweeps is 1+alpha^k(n/T-1); ranks are non-negative; one rank per vertex.", "quantifier": "every graph, every number of sweeps, exact arithmetic", "why_tests_cant": "All graphs and iteration counts.", "anchors": ["include/algorithm/Algorithm.hpp: pageRank"]}
{"id": "C32", "title": "DKtree_delay answers correctly while a merge is pending", "statement": "In DKtree_delay, after any add_edge history that returns, in a build with or without NDEBUG, contains, list_neighbour and the edge count are exact at every moment, including while a merge is spread over later calls.", "quantifier": "every add_edge history", "why_tests_cant": "The pending merge has many intermediate states.", "anchors": ["include/dktree/DKtree_delay.hpp: add_edge, union_delay, contains, list_neighbour"]}
{"id": "C33", "title": "DKtree_delay never drops an insertion", "statement": "In DKtree_delay, add_edge never reaches the branch commented 'cannot happen'.", "quantifier": "every add_edge history", "why_tests_cant": "Needs a small buffer and several occupied levels.", "anchors": ["include/dktree/DKtree_delay.hpp: add_edge, work_done"]}
{"id": "C34", "title": "DKtree_delay pending merges finish", "statement": "A merge left pending by any add_edge history of DKtree_delay is completed, without error and without changing any answer, by at most (target level + 1) further union steps.", "quantifier": "every add_edge history, every pending merge it leaves", "why_tests_cant": "All occupancy patterns.", "anchors": ["include/dktree/DKtree_delay.hpp: union_delay, work_done"]}
{"id": "C35", "title": "DKtree_delay tolerates deletions during a pending merge", "statement": "In DKtree_delay, in every state reached by adds and deletes, the union step of the next add_edge dereferences no null tree, and add_edge loses no edge; contains and the count stay exact when deletions fall inside a pending merge.", "quantifier": "every add/del history", "why_tests_cant": "Needs a deletion in a particular window.", "anchors": ["include/dktree/DKtree_delay.hpp: del_edge, union_delay"]}
{"id": "C36", "title": "DKtree_background is exact when idle", "statement": "In DKtree_background, for every interleaving of the worker with the caller, whenever no merge is pending contains and list_neighbour report exactly the inserted and not deleted edges.", "quantifier": "every history and every schedule of the worker thread", "why_tests_cant": "Schedules cannot be enumerated.", "anchors": ["include/dktree/DKtree_background.hpp: union_collection, add_edge, contains, del_edge"]}
{"id": "C37", "title": "DKtree_background is exact while a merge is pending", "statement": "In DKtree_background, contains(x,y) is true for every inserted edge, and list_neighbour(x) lists y, at every moment of every schedule.", "quantifier": "every history and schedule", "why_tests_cant": "The window is timing dependent.", "anchors": ["include/dktree/DKtree_background.hpp: contains, add_edge, union_collection"]}
{"id": "C38", "title": "caller and worker never touch the levels concurrently", "statement": "In DKtree_background, add_edge, contains, del_edge and list_neighbour access the shared level array only while the worker does not, in every schedule.", "quantifier": "every schedule", "why_tests_cant": "Data races are schedule dependent.", "anchors": ["include/dktree/DKtree_background.hpp: needs_work, union_collection"]}
{"id": "C39", "title": "independent DKtree_background_wait graphs do not interfere", "statement": "Using or destroying one DKtree_background_wait graph does not affect another.", "quantifier": "every pair of graphs and schedules", "why_tests_cant": "Needs two live instances and a schedule.", "anchors": ["include/dktree/DKtree_background_wait.hpp: run_w, needs_work_w, union_collection_wait, ~DKtree_background_wait"]}
{"id": "C40", "title": "the incremental union computes the union", "statement": "k2_tree_union_support, created from a list of edges and any collection of trees, and then called any number of times with any per-call budgets, never reads or writes out of bounds; it reports completion exactly when the sum of the budgets reaches the size of the accumulated unions, and then the target slot holds the bit-encoded tree whose edges are exactly the union of the edges given and the edges of the trees 0..m, with the right edge count, lower slots are empty and higher ones untouched. (The bit vectors of the result are not larger than the capacity estimate, which the program computes in 32-bit arithmetic; C83 is about larger results.)", "quantifier": "every k >= 2, every height, every collection of well-formed encoded trees, every sequence of positive budgets", "why_tests_cant": "All tree shapes and all split points.", "anchors": ["include/dktree/union_support.hpp: unionOperation, result, initialize"]}
{"id": "C41", "title": "DKtree_delay_munro answers correctly while a merge is pending", "statement": "In DKtree_delay_munro contains(x,y) is true for every inserted edge at every moment.", "quantifier": "every add_edge history", "why_tests_cant": "Needs a query in the pending window.", "anchors": ["include/dktree/DKtree_delay_.hpp: add_edge, contains"]}
{"id": "C42", "title": "level capacities", "statement": "Whenever add_edge stores a merged level i, the number of stored edges in it is below the capacity MAXSZ(max(n,m), i+1) in force at that moment.", "quantifier": "every history", "why_tests_cant": "All histories.", "anchors": ["include/dktree/DKtree.hpp: add_edge"]}
{"id": "C43", "title": "add_edge succeeds in making the edge present whatever adj_forced does", "statement": "After add_edge(x,y) returns, contains(x,y) is true, whether or not the tree's adj_forced revives deleted leaves.", "quantifier": "every reachable state, every behaviour of adj_forced allowed by its documentation", "why_tests_cant": "External behaviour ranges over all implementations.", "anchors": ["include/dktree/DKtree.hpp: add_edge, contains_forced"]}
{"id": "C44", "title": "every edge is stored in exactly one place", "statement": "No edge is ever held by two of the containers (buffer and levels), so one del_edge removes it from every query.", "quantifier": "every history", "why_tests_cant": "Layout invariant over all histories.", "anchors": ["include/dktree/DKtree.hpp: add_edge, del_edge, contains"]}
{"id": "C45", "title": "del_edge always returns", "statement": "del_edge(x,y) of in-range coordinates returns normally: no null dereference, no out-of-bounds access, no exception.", "quantifier": "every finite history of in-range add_edge/del_edge calls, every pair", "why_tests_cant": "The failure needs a particular layout (empty buffer, (1,1) stored in a level, enough deleted edges) that depends on the whole history.", "anchors": ["include/dktree/DKtree.hpp: del_edge"]}
{"id": "C46", "title": "load replaces the graph", "statement": "Loading a serialization into a graph that already holds edges gives the serialized graph, with nothing left of the old one.", "quantifier": "every pair of reachable graphs", "why_tests_cant": "Needs particular pairs of level layouts.", "anchors": ["include/dktree/DKtree.hpp: load"]}
{"id": "C47", "title": "operator== can compare any two graphs", "statement": "operator== on any two graphs returns and reads no memory outside the two graphs.", "quantifier": "every pair of reachable graphs, also with different vertex counts", "why_tests_cant": "The out-of-bounds read depends on the two buffer fill levels and rarely crashes.", "anchors": ["include/dktree/Container0.hpp: operator==", "include/dktree/DKtree.hpp: operator=="]}
{"id": "C48", "title": "DKtree_delay: list_neighbour agrees with contains", "statement": "In DKtree_delay, list_neighbour(x) lists y if and only if contains(x,y), in every reachable state.", "quantifier": "every add/del history, every pair", "why_tests_cant": "Needs a particular reorganisation; all histories.", "anchors": ["include/dktree/DKtree_delay.hpp: list_neighbour, contains, del_edge"]}
{"id": "C49", "title": "DKtree_delay: del_edge returns", "statement": "In DKtree_delay, del_edge of an in-range edge returns normally in every reachable state.", "quantifier": "every add/del history, every pair", "why_tests_cant": "The failing reorganisation needs a particular level layout.", "anchors": ["include/dktree/DKtree_delay.hpp: del_edge"]}
{"id": "C50", "title": "DKtree_delay: a loaded graph accepts insertions", "statement": "A DKtree_delay saved with no merge pending and loaded into a new object accepts any further add_edge without undefined behaviour.", "quantifier": "every saved graph, every edge", "why_tests_cant": "Depends on which levels are occupied when saving.", "anchors": ["include/dktree/DKtree_delay.hpp: load, union_delay, add_edge"]}
{"id": "C51", "title": "DKtree_delay_munro is exact when no merge is pending", "statement": "In DKtree_delay_munro built with assertions, whenever no merge is pending contains(x,y) is true exactly for the edges inserted so far; at any time, in any build, it is never true for an edge never inserted.", "quantifier": "every add/del history within the 32-bit size estimate, every pair", "why_tests_cant": "All histories and all merge stages.", "anchors": ["include/dktree/DKtree_delay_.hpp: add_edge, contains"]}
{"id": "C52", "title": "DKtree_delay_munro: list_neighbour lists each successor once", "statement": "In DKtree_delay_munro list_neighbour(x) returns every inserted successor of x exactly once and nothing else, whether or not a merge is pending.", "quantifier": "every insertion history, every vertex", "why_tests_cant": "Needs particular buffer and merge stages.", "anchors": ["include/dktree/DKtree_delay_.hpp: list_neighbour, tmp_edge"]}
{"id": "C53", "title": "DKtree_delay_munro: get_number_edges is the number of distinct edges", "statement": "In DKtree_delay_munro get_number_edges() equals the number of distinct edges inserted.", "quantifier": "every insertion history", "why_tests_cant": "Drift needs a re-insertion in the pending window.", "anchors": ["include/dktree/DKtree_delay_.hpp: add_edge, get_number_edges"]}
{"id": "C54", "title": "DKtree_delay_munro: add_edge returns", "statement": "In DKtree_delay_munro a pending merge is always finished before the next one starts: add_edge of an in-range edge returns normally, without failing assert(union_support.has_finish()).", "quantifier": "every insertion history, every k", "why_tests_cant": "The assertion needs hundreds of particular insertions.", "anchors": ["include/dktree/DKtree_delay_.hpp: add_edge", "include/dktree/union_support.hpp: unionOperation, iteration_size"]}
{"id": "C55", "title": "DKtree_delay_munro: del_edge deletes", "statement": "In DKtree_delay_munro, after del_edge(x,y) contains(x,y) is false.", "quantifier": "every history, every pair", "why_tests_cant": "All histories.", "anchors": ["include/dktree/DKtree_delay_.hpp: del_edge"]}
{"id": "C56", "title": "DKtree_background: insertions never fail and always return", "statement": "In DKtree_background and DKtree_background_wait, when only edges are inserted, no schedule of the worker makes the caller or the worker throw, dereference a null or out-of-range level, or race; and from every moment of an add_edge call some continuation completes it.", "quantifier": "every insertion history, every number of vertices from 2, every schedule of the worker thread", "why_tests_cant": "Schedules cannot be enumerated.", "anchors": ["include/dktree/DKtree_background.hpp: add_edge, union_collection", "include/dktree/DKtree_background_wait.hpp: add_edge, union_collection_wait"]}
{"id": "C57", "title": "DKtree_background: a pending merge finishes", "statement": "Whenever a merge is pending, the worker finishes it within a fixed number of its own steps (or ends the program with its 'collection too big' exception, which cannot happen after insertions only), so busy waits on needs_work end.", "quantifier": "every history and schedule", "why_tests_cant": "Liveness over all schedules.", "anchors": ["include/dktree/DKtree_background.hpp: union_collection, needs_work"]}
{"id": "C58", "title": "DKtree_background: the destructor stops the worker", "statement": "In DKtree_background and DKtree_background_wait, once the destructor has returned the worker thread never accesses the object again, on any history and schedule.", "quantifier": "every history and every schedule of the worker thread, every number of worker steps afterwards", "why_tests_cant": "Use after free depends on the schedule.", "anchors": ["include/dktree/DKtree_background.hpp: ~DKtree_background, union_collection", "include/dktree/DKtree_background_wait.hpp: ~DKtree_background_wait, union_collection_wait"]}
{"id": "C59", "title": "DKtree_background: serialize saves the whole graph", "statement": "In DKtree_background and DKtree_background_wait, what serialize writes, at any moment of any schedule, loads into a graph with exactly the inserted edges.", "quantifier": "every insertion history and every schedule of the worker thread", "why_tests_cant": "The window is timing dependent.", "anchors": ["include/dktree/DKtree_background.hpp: serialize, load", "include/dktree/DKtree_background_wait.hpp: serialize, load"]}
{"id": "C60", "title": "A copy of a graph is independent of the original", "statement": "After copying a DKtree (copy constructor or assignment, as Algorithm does with the graph it is given), any calls on the copy and on the original leave each of them answering as if it alone had received all calls before the copy and then its own.", "quantifier": "every history before the copy and every interleaving of calls on the two objects afterwards", "why_tests_cant": "Whether a change shows through depends on which edges happen to lie in shared trees, for every history on both sides.", "anchors": ["include/dktree/DKtree.hpp: k_collection (shared_ptr), implicit copy", "include/algorithm/Algorithm.hpp: Algorithm(Graph&), set_graph"]}
{"id": "C61", "title": "Separately constructed graphs never interfere", "statement": "Two DKtree objects constructed separately in one program, with any numbers of vertices and any interleaving of calls, answer every query exactly as if each were alone, and the program fails only if one of them would fail alone.", "quantifier": "every pair of sizes, every interleaving of calls on the two objects, any tree implementation", "why_tests_cant": "Absence of shared state must hold for all interleaved histories.", "anchors": ["include/dktree/DKtree.hpp: add_edge, del_edge, clean_serialize_tree, contains, list_neighbour"]}
{"id": "C62", "title": "Inserting during an edge loop", "statement": "A loop from edge_begin() to edge_end() whose body inserts edges into the same graph visits exactly the edges that were in the graph when the loop began, each once, ends, and the graph has all inserted edges afterwards.", "quantifier": "every graph built by insertions, every choice of edges inserted at every step of the loop (for other histories: the loop visits what it would have visited without insertions)", "why_tests_cant": "Insertions may flush the buffer and merge levels at any step of the loop; all positions and merges must be covered.", "anchors": ["include/dktree/DKtreeEdgeIterator.hpp: constructor, operator++", "include/dktree/DKtree.hpp: add_edge, edge_begin, edge_end"]}
{"id": "C63", "title": "Iterators and graph algorithms on a delayed-merge graph see exactly its edges", "statement": "On a DKtree_delay built by any sequence of insertions, whether or not a merge is pending, a loop over edge_begin()..edge_end() visits every pair that contains() reports exactly once and nothing else, and bfs, dfs, the triangle counter and pageRank compute what they compute on a graph with exactly those edges. After any history of insertions and deletions that returns, a loop over neighbour_begin(x) yields exactly list_neighbour(x).", "quantifier": "every number of vertices 2..9999999 and every insertion history (neighbour loop: every history of insertions and deletions that returns), builds with and without assertions, every lawful tree implementation", "why_tests_cant": "whether a merge is pending and which levels are occupied depends on the whole insertion history; a test sees a few of the unboundedly many merge states", "anchors": ["include/dktree/DKtree_delay.hpp: edge_begin, neighbour_begin, list_neighbour", "include/dktree/DKtreeEdgeIterator.hpp", "include/dktree/DKtreeNeighbourIterator.hpp", "include/algorithm/Algorithm.hpp"]}
{"id": "C64", "title": "No schedule leaves a call on a DKtree_background_wait blocked forever", "statement": "On a DKtree_background_wait with one user thread, add_edge, del_edge and the destructor never deadlock and never miss a wake-up: whenever the user thread sleeps on the condition variable a merge is pending or the worker is about to notify, whenever the worker sleeps it has nothing to do or the user thread is about to notify, and both never sleep at once. Every call returns after finitely many steps on every schedule with finitely many spurious wake-ups, unless code outside the locked sections fails; after insertions only nothing fails, every add_edge returns, and the destructor returns and the worker's function ends.", "quantifier": "every history of insertions and deletions, every interleaving of the user thread and the worker at the granularity of lock, test, sleep, wake, change, notify, unlock, every pattern of spurious wake-ups, no fairness assumption", "why_tests_cant": "a lost wake-up needs a particular interleaving of a few instructions in two threads; a test that passes has only seen the schedules the machine happened to take", "anchors": ["include/dktree/DKtree_background_wait.hpp: union_collection_wait, add_edge, del_edge, ~DKtree_background_wait, m_mutex, cv_w, needs_work_w, run_w"]}
{"id": "C65", "title": "Iterators and graph algorithms on a background-merge graph see exactly its edges", "statement": "On a DKtree_background or DKtree_background_wait built by any insertions, at any moment between two calls, a loop over edge_begin()..edge_end() visits every inserted edge exactly once and nothing else, a loop over neighbour_begin(x) visits every neighbour of x exactly once, without data races with the worker, and bfs, dfs, the triangle counter and pageRank compute on exactly the inserted edges.", "quantifier": "every number of vertices up to 9999999, every insertion history, every interleaving with the merging thread, every lawful tree implementation", "why_tests_cant": "whether an edge is in the buffer, in the worker's hands or in a level depends on the schedule; a test sees only the schedules that happened", "anchors": ["include/dktree/DKtree_background.hpp: edge_begin, neighbour_begin, first_container, k_collections, get_neighbour_begin", "include/dktree/DKtree_background_wait.hpp: edge_begin, neighbour_begin", "include/dktree/DKtreeEdgeIterator.hpp", "include/dktree/DKtreeNeighbourIterator.hpp", "include/algorithm/Algorithm.hpp"]}
{"id": "C66", "title": "A graph over bit-encoded k2-trees behaves as the inserted set of edges", "statement": "When the levels of a DKtree hold k2-trees stored as the two bit vectors that union_support reads (arity k, least sufficient height), searched by counting ones, with deletion clearing the bit of the cell and counting it as erased, every operation has the behaviour DKtree relies on: after any insertions contains is membership and get_number_edges the number of distinct edges; after any history contains answers the last call on each edge other than (1,1); a deletion changes exactly one bit and the answer on exactly one edge.", "quantifier": "every arity k >= 2, every number of vertices, every set of edges, every history", "why_tests_cant": "the position of a cell in the bit vector depends on all bits before it; all edge sets, sizes and arities cannot be enumerated", "anchors": ["include/dktree/union_support.hpp: union_support", "include/dktree/DKtree.hpp: add_edge, del_edge, contains, k_tree"]}
{"id": "C67", "title": "Iterators and graph algorithms on DKtree_delay_munro", "statement": "On every reachable DKtree_delay_munro graph a loop over the edges visits exactly the inserted edges, each once, a loop over the neighbours of a vertex exactly its inserted successors, each once, bfs and dfs visit exactly the vertices reachable from the root, count_triangles counts the directed triangles of the inserted edges, and pageRank returns a rank for every vertex.", "quantifier": "every arity, number of vertices, insertion history, merge state, build with or without assertions, root and vertex", "why_tests_cant": "what the iterators see depends on how far the incremental merge has got, which depends on the whole history; histories and graphs are unbounded", "anchors": ["include/dktree/DKtree_delay_.hpp: edge_begin, neighbour_begin, node_begin, list_neighbour, contains", "include/dktree/DKtreeEdgeIterator.hpp: DKtreeEdgeIterator", "include/dktree/DKtreeNeighbourIterator.hpp: DKtreeNeighbourIterator", "include/algorithm/Algorithm.hpp: Algorithm"]}
{"id": "C68", "title": "Saving, loading and comparing DKtree_delay_munro graphs", "statement": "Serializing any reachable DKtree_delay_munro graph to an empty directory and loading it into a new object succeeds and gives a graph with the same numbers of edges and vertices, the same answers of contains and list_neighbour, which compares equal to the saved one and behaves like it under every further sequence of calls; two graphs that compare equal answer alike.", "quantifier": "every arity, number of vertices, history before saving, merge state, build with or without assertions, sequence of calls after loading", "why_tests_cant": "what is written depends on how far the incremental merge has got; the behaviour after loading ranges over all later histories", "anchors": ["include/dktree/DKtree_delay_.hpp: serialize, load, operator==", "include/dktree/Container0.hpp: save, load", "include/dktree/union_support.hpp: k2_tree_union_support"]}
{"id": "C69", "title": "DKtree_delay_munro loses no edge when assertions are compiled out", "statement": "In DKtree_delay_munro, in every build (the Makefile defines NDEBUG), whenever no merge is pending contains(x,y) is true for every edge inserted so far.", "quantifier": "every arity, number of vertices and history within the 32-bit size estimate, with and without assertions", "why_tests_cant": "A loss needs hundreds of particular insertions that keep seven levels occupied.", "anchors": ["include/dktree/DKtree_delay_.hpp: add_edge, contains", "include/dktree/union_support.hpp: unionOperation, iteration_size", "Makefile: CFLAGS"]}
{"id": "C70", "title": "Inserting edges inside a loop over neighbours", "statement": "A loop from neighbour_begin(x) to neighbour_end() whose body calls add_edge on the same DKtree ends, visits every neighbour of x that was there before the loop, and visits only vertices that are neighbours of x when it ends.", "quantifier": "every number of vertices, insertion history, vertex x and sequence of insertions made in the rounds of the loop", "why_tests_cant": "what ++ reads depends on whether one of the insertions flushed the buffer and on which slots were filled again, hence on the whole history and on every body", "anchors": ["include/dktree/DKtreeNeighbourIterator.hpp: operator++", "include/dktree/Container0NeighIterator.hpp: operator++", "include/dktree/DKtree.hpp: add_edge, neighbour_begin", "include/dktree/Container0.hpp: insert, clean, resize"]}
{"id": "C71", "title": "Deleting edges inside a loop over neighbours", "statement": "A loop from neighbour_begin(x) to neighbour_end() whose body calls del_edge(x,y) visits only edges that are still in the graph at that moment; when the body deletes exactly (a selection of) the edges it visits, every neighbour is visited once and afterwards exactly the selected edges are gone.", "quantifier": "every number of vertices, insertion history, vertex x, selection of visited edges and sequence of deletions made in the rounds", "why_tests_cant": "the iterator follows links of nodes that may have been unlinked; the outcome depends on the whole history and on every body", "anchors": ["include/dktree/DKtreeNeighbourIterator.hpp: operator++", "include/dktree/Container0NeighIterator.hpp: operator++", "include/dktree/DKtree.hpp: del_edge, neighbour_begin", "include/dktree/Container0.hpp: erase"]}
{"id": "C72", "title": "Amortised cost of insertions", "statement": "Over any sequence of insertions into a DKtree with n >= 8 vertices, the total number of edges written into k2_trees (by building from the buffer and by every union) is at most 144*(log2 N)^(1/4) per insertion, N being the larger of the number of vertices and of insertions, and at most one insertion in MAXSZ(n,0)+1 flushes the buffer.", "quantifier": "every number of vertices >= 8 and every sequence of insertions, duplicates included", "why_tests_cant": "an amortised bound is about every sequence of every length; a benchmark measures a few", "anchors": ["include/dktree/DKtree.hpp: add_edge", "include/dktree/utils.hpp: MAXSZ", "include/dktree/Container0.hpp: size"]}
{"id": "C73", "title": "load with clearing leaves an empty, reusable directory", "statement": "load(in, dir, true) gives the same graph as load(in, dir) and removes every file of the serialization; loading from the directory again throws; any graph serialized into it afterwards is read back as it was, whatever files were there before. If load throws, so does load with clearing.", "quantifier": "every graph object loaded into, every content of the directory, every graph serialized afterwards", "why_tests_cant": "Ranges over every mixture of stale level files and every later graph.", "anchors": ["include/dktree/DKtree.hpp: load, clean_serialize, serialize"]}
{"id": "C74", "title": "A crash during serialize loses neither the old nor the new graph", "statement": "If the process stops at any point of serialize into a directory that holds an earlier serialization, a later load throws, or gives the old graph, or gives the new graph.", "quantifier": "every pair of graphs, every crash point", "why_tests_cant": "The crash point is not under the control of a test and the level layouts matter.", "anchors": ["include/dktree/DKtree.hpp: serialize, load"]}
{"id": "C75", "title": "A crash while load clears the directory cannot produce a smaller graph", "statement": "If the process stops while load(in, dir, true) removes the files, in whatever order, a later load throws or gives the same graph.", "quantifier": "every graph, every set of files already removed", "why_tests_cant": "The order of removal is unspecified and the crash point arbitrary.", "anchors": ["include/dktree/DKtree.hpp: load, clean_serialize"]}
{"id": "C76", "title": "No insertion into DKtree_delay performs a long chain of merges", "statement": "One add_edge of DKtree_delay performs at most two unions of trees and writes at most 3(m+1) edges into trees, m being the number of edges; with at least 256 vertices at most one union and 2(m+1) edges.", "quantifier": "every history of insertions, every next edge, every number of vertices >= 2", "why_tests_cant": "A worst case over all histories: a test only sees the cost on the histories it runs.", "anchors": ["include/dktree/DKtree_delay.hpp: add_edge"]}
{"id": "C77", "title": "A merge of DKtree_delay_munro is spread over insertions", "statement": "With m edges, n vertices and trees of height h, one add_edge of DKtree_delay_munro processes at most 2(k^2 h log2(max(n,m))^2 + 1) nodes of merges, and copies or builds trees of at most k^2 h (m+1) bits; an insertion that starts a merge copies or builds at least one bit per edge, so its worst case is not polylogarithmic.", "quantifier": "every history of calls that returned, every next edge", "why_tests_cant": "A worst case over all histories and sizes: a test only sees the cost on the histories it runs.", "anchors": ["include/dktree/DKtree_delay_.hpp: add_edge", "include/dktree/union_support.hpp: iteration_size, unionOperation"]}
{"id": "C78", "title": "A copy of a DKtree_delay is independent of the original", "statement": "After copying a DKtree_delay, calls on the copy and calls on the original do not influence each other: contains of each answers as if the calls on the other had not been made.", "quantifier": "every history before the copy, every interleaving of calls on both objects (and any number of copies), every edge", "why_tests_cant": "Sharing only shows for particular histories before the copy and particular later merges; a test sees the interleavings it runs.", "anchors": ["include/dktree/DKtree_delay.hpp: implicit copy constructor, k_collection, tmp, union_delay, add_edge"]}
{"id": "C79", "title": "Separately constructed DKtree_delay graphs are independent", "statement": "Two DKtree_delay graphs constructed separately never influence each other: after any interleaved calls each answers contains, list_neighbour and get_number_edges as if its own calls had been made alone, and the program returns normally whenever each does alone.", "quantifier": "every pair of sizes, every interleaving of insertions and deletions on both", "why_tests_cant": "All interleavings of all histories, with in-place merges of heap-allocated trees.", "anchors": ["include/dktree/DKtree_delay.hpp: DKtree_delay(uint), add_edge, del_edge, contains, list_neighbour"]}
{"id": "C80", "title": "A copy of a DKtree_delay_munro is independent of the original", "statement": "Copies of a DKtree_delay_munro graph are independent of it and of each other: a program of calls on any number of copies returns if each object's calls return alone, and every object answers contains, list_neighbour, get_number_edges and get_number_nodes as if only its own calls (and those of its source before the copy) had been made.", "quantifier": "every number of vertices, every program of copies and calls on any of the objects", "why_tests_cant": "Whether a merge is in progress at the moment of the copy depends on the history; a test sees the interleavings it runs.", "anchors": ["include/dktree/DKtree_delay_.hpp: implicit copy constructor, k_collection, union_support, add_edge", "include/dktree/union_support.hpp: k_collection, tmp, unionOperation"]}
{"id": "C81", "title": "Answers do not depend on the representation", "statement": "The same calls give the same answers whatever class, tree arity, tree implementation and rounding of the capacity thresholds are used: after the same insertions contains, the set of list_neighbour and get_number_edges agree between any two builds of DKtree, DKtree_delay, DKtree_background and DKtree_delay_munro (whenever each returns and has no asynchronous merge pending); for DKtree also with deletions as long as no deletion triggers a reorganisation.", "quantifier": "every number of vertices, every insertion history (and every history without a reorganisation), every pair of lawful tree implementations and threshold functions", "why_tests_cant": "All pairs of implementations and all histories; the benchmark only compares run times, and rounding of pow/log differs between platforms.", "anchors": ["include/dktree/DKtree.hpp: add_edge, del_edge, contains, list_neighbour, get_number_edges, MAXSZ", "include/dktree/DKtree_delay.hpp: add_edge", "include/dktree/DKtree_background.hpp: add_edge", "include/dktree/DKtree_delay_.hpp: add_edge"]}
{"id": "C82", "title": "An insertion that throws leaves the graph as it was", "statement": "If add_edge throws, the graph is as before the call, and a program that catches the exception can go on: the final graph is the one of the calls that returned. In DKtree the object itself is unchanged; in DKtree_delay (assertions enabled), where the call may have advanced a pending merge, contains and get_number_edges are those of the calls that returned. No other call throws.", "quantifier": "every number of vertices, every history of insertions and deletions, every set of calls that throw", "why_tests_cant": "Which call throws depends on the whole history; the tests never let add_edge throw.", "anchors": ["include/dktree/DKtree.hpp: add_edge, del_edge", "include/dktree/DKtree_delay.hpp: add_edge, union_delay"]}
{"id": "C83", "title": "the incremental union is memory safe for every size", "statement": "k2_tree_union_support, created from a list of edges and any collection of trees on the vertices 0..n-1 and called with enough total budget, ends without writing out of bounds, however large the trees are. (It does not: the capacity of the result is computed in 32-bit arithmetic. The merge ends correctly exactly when the result is not larger than that estimate, which is 1431655764 bits for k = 2 on large graphs, 286331152 for k = 4, 1090785344 for k = 8 and 16843008 for k = 16.)", "quantifier": "every arity, height, collection of well-formed trees and sequence of budgets", "why_tests_cant": "The failing inputs are far larger than any test, and the boundary depends on arity and height through modular arithmetic.", "anchors": ["include/dktree/union_support.hpp: initialize, unionOperation"]}
{"id": "C84", "title": "Separately constructed DKtree_delay_munro graphs are independent", "statement": "Any number of DKtree_delay_munro graphs, constructed at any point of a program on any numbers of vertices, never influence each other: whatever calls are made on them in whatever order (merges in progress included), each answers contains, list_neighbour, get_number_edges and get_number_nodes as if its own calls had been made alone, and the program returns normally whenever each graph does alone.", "quantifier": "every number of graphs, every program of constructions and calls", "why_tests_cant": "All interleavings of all histories, with merges that stay in progress across calls on other objects.", "anchors": ["include/dktree/DKtree_delay_.hpp: DKtree_delay_munro(uint), add_edge, contains, list_neighbour", "include/dktree/union_support.hpp: k_collection pointer"]}
{"id": "C85", "title": "DKtree_delay_munro is memory safe for every number of insertions", "statement": "Inserting any number of in-range edges into a DKtree_delay_munro never causes undefined behaviour (out-of-bounds accesses). (It does: with arity 16 on 65536 vertices, 540000 edges in different 16 x 16 blocks make a merge write behind the end of its bit vectors. Up to explicit limits on the number of insertions, or on the number of vertices, it never does; and for k = 2, 4, 8, 16 a history that returns has the right contents however long it is.)", "quantifier": "every insertion history of any length, every k from 2 to 16, every number of vertices, both builds", "why_tests_cant": "The failing histories have hundreds of thousands of insertions; safety below the limits is about all histories.", "anchors": ["include/dktree/union_support.hpp: initialize, unionOperation", "include/dktree/DKtree_delay_.hpp: add_edge"]}
{"id": "C86", "title": "Whole programs on insert-only graphs behave as programs on sets of edges", "statement": "A program uses any number of DKtree variables: it constructs graphs on 2 to 9999999 vertices, inserts in-range edges, copies and assigns graphs, asks contains, get_number_edges, get_number_nodes, list_neighbour, loops over neighbours, nodes and edges, BFS, DFS and count_triangles_dummy_hash, keeps edge iterators and advances them in between, serializes into empty directories, loads them into new variables with or without clearing, and goes on using all of them; each statement may depend on the answers so far. Every such program runs without exception or undefined behaviour, and every answer is the one for finite sets of edges that share nothing: copies, loaded graphs and saved graphs are independent values, and an iterator yields exactly the edges that were there when it was made, each once. Graphs that compare equal with operator== hold the same edges.", "quantifier": "every adaptive program of such statements, of any length, over any number of variables, iterators and directories", "why_tests_cant": "The interactions are between sharing of trees by copies and iterators, reuse of buffers, level merges and files; the claim is about every sequence of statements, chosen adaptively.", "anchors": ["include/dktree/DKtree.hpp: DKtree(uint), add_edge, contains, list_neighbour, edge_begin, serialize, load, operator==", "include/dktree/DKtreeEdgeIterator.hpp: DKtreeEdgeIterator, operator++", "include/algorithm/Algorithm.hpp: bfs, dfs, count_triangles_dummy_hash"]}
{"id": "C87", "title": "Rare deletions of settled edges are exact", "statement": "A DKtree on n >= 2 vertices is changed by any sequence of add_edge and del_edge calls on in-range edges, never holding more than 2^64 edges, in which (a) after every del_edge at most one edge has been deleted for every six still present, and (b) no del_edge names an edge that is among the last B inserted ones, B being the capacity of the insertion buffer (with n >= 16: an eighth of the larger of the vertex count and the maximal edge count). Then every call returns, and contains, list_neighbour, get_number_edges, the neighbour, node and edge loops, BFS, DFS, triangle counting and page rank answer for exactly the set of edges whose last call was an add; the graph can be saved, and the loaded graph shows the same edges and compares equal.", "quantifier": "every such history of any length, every n, every lawful tree implementation", "why_tests_cant": "deletions interact with buffer flushes, level merges and the reorganisation threshold; a test fixes one interleaving, and the known failures appear only for particular fill levels", "anchors": ["include/dktree/DKtree.hpp: add_edge, del_edge, contains, list_neighbour, get_number_edges, serialize, load", "include/dktree/Container0.hpp: insert, erase", "include/dktree/utils.hpp: MAXSZ, TAU"]}
{"id": "C88", "title": "Pruning up to a seventh of a built graph is exact", "statement": "A graph of at most 2^64 edges is built with add_edge (more generally by a history as in C87); then any edges are deleted, in any order, repeated or absent ones too, recent ones too, such that at most one edge is deleted for every six that remain. Every del_edge returns, and afterwards contains, list_neighbour, get_number_nodes and get_number_edges answer for exactly the remaining edges.", "quantifier": "every list of insertions and every list of deletions with that proportion, every n >= 2", "why_tests_cant": "whether a deletion reorganises (and then loses an edge, drifts the count or dereferences null) depends on how many marked edges the levels hold after each of the deletions", "anchors": ["include/dktree/DKtree.hpp: del_edge", "include/dktree/Container0.hpp: erase", "include/dktree/utils.hpp: TAU"]}
{"id": "C89", "title": "DKtree_delay: rare deletions of settled edges are exact", "statement": "A DKtree_delay on n >= 162 vertices is changed by any sequence of add_edge and del_edge calls on in-range edges, never holding more than 2^64 edges, in which (a) after every del_edge at most one edge has been deleted for every six still present, and (b) no del_edge names an edge inserted so recently that less than an eighth of the graph's size (vertices or edges, whichever is larger) was inserted after it. Then, with assertions enabled or not and however the calls fall between the steps of pending merges, every call returns, and contains, list_neighbour, get_number_edges, the loops over neighbours, nodes and edges, BFS, DFS, triangle counting and page rank answer for exactly the set of edges whose last call was an add.", "quantifier": "every such history of any length, every n >= 162, both builds, every lawful tree implementation", "why_tests_cant": "a deletion can empty the very tree that the pending merge reads next (a null dereference in the next add_edge), can shift the buffer past its capacity or start a reorganisation during a merge; which of these happens depends on the fill levels at each call", "anchors": ["include/dktree/DKtree_delay.hpp: add_edge, del_edge, union_delay, contains, list_neighbour, get_number_edges", "include/dktree/Container0.hpp: insert, erase", "include/dktree/utils.hpp: MAXSZ, TAU"]}
{"id": "C90", "title": "DKtree_delay: pruning up to a seventh of a built graph is exact", "statement": "A DKtree_delay is built by insertions (more generally, on 162 or more vertices, by a history as in C89) and any edges are then deleted, recent, repeated or absent ones too, such that at most one edge is deleted for every six that remain. Every del_edge returns, whatever merge is pending, and contains, list_neighbour, get_number_nodes and get_number_edges answer for exactly the remaining edges.", "quantifier": "every list of insertions that returns and every list of deletions with that proportion, every n >= 2", "why_tests_cant": "whether a deletion reorganises depends on the number of marked edges in the level hit, and the levels hit depend on how far the pending merge has come", "anchors": ["include/dktree/DKtree_delay.hpp: del_edge", "include/dktree/Container0.hpp: erase", "include/dktree/utils.hpp: TAU"]}
{"id": "C91", "title": "Rounding errors in the size thresholds change no answer", "statement": "The thresholds that decide when edges move between levels and when a deletion reorganises are computed with double arithmetic. Let the library's log2, pow and division err by any amount up to 2^-40 relative (integer results exact). Then: on at most 35 vertices and 36 calls every history runs exactly as with exact arithmetic; a DKtree filled by insertions, a client program of insertions, copies, unions, saves and loads, and (below 2^52 edges) a history with rare settled deletions, with restarts in between, or a pruned graph (pruned in an edge loop, too) answer every query, loop and algorithm exactly; so does a DKtree_delay on 162 or more vertices in both builds; the guarantees of DKtree_background and DKtree_background_wait on every schedule (calls return without failure or race, merges end, exact answers when idle) hold for insertions, rare settled deletions and pruning as with exact arithmetic. The known defects are not rounding artefacts: each failing history fails under every such library.", "quantifier": "every floating-point library within the error bound, every such history of any length, every number of vertices", "why_tests_cant": "a test exercises the one libm it is linked with; a value one ulp to the other side of an integer moves a threshold by one and with it the level an insertion picks, the assertion in DKtree_delay, or the moment of a reorganisation", "anchors": ["include/dktree/utils.hpp: MAXSZ, TAU, EPS", "include/dktree/DKtree.hpp: add_edge, del_edge", "include/dktree/DKtree_delay.hpp: add_edge, del_edge", "include/dktree/DKtree_background.hpp, DKtree_background_wait.hpp: add_edge, del_edge, worker"]}
{"id": "C92", "title": "Deleting edges inside a loop over the edges", "statement": "A program loops over the edges of a DKtree (edge_begin to edge_end) and the loop body calls add_edge and del_edge on the same graph. The loop ends, never shows an edge twice, shows only edges that were there when it began, and shows every one of those unless the body itself deleted it; the graph left behind is the one the same calls would have left without a loop. In particular 'for (e : edges) if (p(e)) del_edge(e)', with p true of at most one edge in seven, visits every edge once and leaves exactly the edges with p(e) false.", "quantifier": "every settled history before the loop (C87), every loop body depending on everything visited so far, every choice of the tree iterators to show or skip edges erased meanwhile, both builds", "why_tests_cant": "which trees the loop and the graph still share depends on the whole history and on the calls made so far in the loop", "anchors": ["include/dktree/DKtreeEdgeIterator.hpp: DKtreeEdgeIterator, operator++", "include/dktree/DKtree.hpp: del_edge, add_edge, edge_begin"]}
{"id": "C93", "title": "Restarting in the middle of a history with deletions changes nothing", "statement": "A program adds and deletes edges as in C87 (deletions rare and only of settled edges) and at any points saves the DKtree, drops it and loads it into a new object, through one directory that load clears or through new directories, any number of times. Every call, save and load returns, and at every point contains, list_neighbour, the counters, the loops and the algorithms answer for exactly the set of edges, as if there had been no restart.", "quantifier": "every sequence of calls and restarts whose calls are a history as in C87, every n >= 2 (loops and algorithms n <= 9999999)", "why_tests_cant": "a loaded graph differs internally from the saved one, and the difference could show only after arbitrarily many further calls and restarts", "anchors": ["include/dktree/DKtree.hpp: serialize, load, clean_serialize, add_edge, del_edge", "include/dktree/Container0.hpp: serialize, load, insert"]}
{"id": "C94", "title": "pageRank approximates PageRank", "statement": "On every graph with an edge the ranks that pageRank returns approximate the PageRank of the graph, the unique probability distribution r with r(v) = alpha * sum over u of r(u)*P(u,v) + (1-alpha)/n, where P(u,v) = 1/outdegree(u) for an edge (u,v) and 1/n for every v if u has no successor: with the default arguments the sum of the absolute differences is at most 1/2, with max_iterations = k at most alpha^k (n/T + 1), or (1+alpha)/(1-alpha)*n*convergence if the convergence test stopped the loop.", "quantifier": "every graph, every alpha in [0,1), every threshold and number of sweeps; exact arithmetic", "why_tests_cant": "The bound must hold for every graph and every point at which the test can stop a sweep; the failure needs more than two million vertices.", "anchors": ["include/algorithm/Algorithm.hpp: pageRank"]}
{"id": "C95", "title": "An Algorithm answers for the graph it was made from", "statement": "Algorithm<DKtree> a(g) keeps its own copy of g. Whatever is called on g afterwards, the searches, the triangle count and pageRank of a answer for the graph as it was when a was made, and g answers as if a did not exist.", "quantifier": "every history of g before the Algorithm is made and every later sequence of calls on g", "why_tests_cant": "The copy shares trees with the graph; which ones, and whether a later call writes to them, depends on the whole history.", "anchors": ["include/algorithm/Algorithm.hpp: Algorithm, set_graph", "include/dktree/DKtree.hpp: k_collections"]}
{"id": "C96", "title": "clustering_coefficient is a clustering coefficient", "statement": "On a graph with a path of two edges, clustering_coefficient returns the share of these paths whose ends are joined by an edge: a number between 0 and 1, which is 1 on complete graphs.", "quantifier": "every graph", "why_tests_cant": "The result must be right on every graph; a bound on it for every graph needs a counting argument.", "anchors": ["include/algorithm/Algorithm.hpp: clustering_coefficient, count_triangles"]}
{"id": "C97", "title": "pageRank in floating point", "statement": "On a graph with an edge, the ranks that pageRank() computes with double arithmetic (and the float reciprocal of the out-degree in the code) are close to the exact PageRank: with the default arguments within 1/2 in the sum of absolute differences. In particular rounding errors do not accumulate with the number of edges or sweeps.", "quantifier": "every graph, alpha, convergence, number of sweeps, and every arithmetic with the error bounds of IEEE-754", "why_tests_cant": "Rounding errors depend on the order of the additions and on every rank; a bound for all graphs needs an error analysis of all additions of a sweep and of the iteration.", "anchors": ["include/algorithm/Algorithm.hpp: pageRank"]}
{"id": "C98", "title": "pageRank returns numbers", "statement": "On every graph, the ranks that pageRank() returns are finite doubles: no overflow, no division by zero, no NaN; on a graph with an edge they are the ranks of C97.", "quantifier": "every graph with or without edges, every alpha, convergence threshold and number of sweeps", "why_tests_cant": "An infinity or a NaN can arise in any of the additions and products of any sweep; that none does must hold for every graph.", "anchors": ["include/algorithm/Algorithm.hpp: pageRank"]}
{"id": "C99", "title": "The iterators are forward iterators", "statement": "On every graph the edge, neighbour and node iterators behave as the forward_iterator_tag they declare promises: a loop that visits *it++ shows the same elements as one with ++it; an iterator assigned from another one goes on as that one does; and several loops over the same graph can be nested, each visiting everything.", "quantifier": "every graph, every position of the iterators, every vertex", "why_tests_cant": "Which member an assignment forgets, or which iterator a reference shares, shows only for certain positions and contents of buffer and trees; the promise is for all of them.", "anchors": ["include/dktree/DKtreeEdgeIterator.hpp: operator++(int), operator=", "include/dktree/DKtreeNeighbourIterator.hpp: operator++(int)", "include/dktree/DKtreeNodeIterator.hpp: operator++(int)", "include/dktree/DKtree.hpp: edge_begin, neighbour_begin"]}
{"id": "C100", "title": "DKtree_background_wait with rare deletions", "statement": "If a history of DKtree_background_wait never inserts an edge that is present, deletes at most one edge for every six that remain, and deletes no edge among the last B inserted (B the capacity of the buffer), then on every schedule of the two threads every call returns or can still return, without exception, undefined behaviour or data race; the edge count is exact at all times, and whenever no merge is pending all queries, loops and algorithms see exactly the edges of the history.", "quantifier": "every such history on n >= 2 vertices, every interleaving of the caller with the worker, every moment of every call", "why_tests_cant": "The failure (a write out of bounds, a collection too big for every level) depends on how merges and deletions interleave; no set of runs covers all interleavings and histories.", "anchors": ["include/dktree/DKtree_background_wait.hpp: add_edge, del_edge", "include/dktree/DKtree_background.hpp: contains, list_neighbour, get_number_edges"]}
{"id": "C101", "title": "Background classes: build, then prune", "statement": "After any insertions of distinct edges into a DKtree_background or DKtree_background_wait, deleting any edges - recently inserted ones included - while at most one is deleted for every six left is safe on every schedule: each call returns or can still return, without failure or data race; the edge count is exact at once, a pending merge finishes within 15 steps of the worker, and with nothing pending contains and list_neighbour are exact.", "quantifier": "every list of distinct edges on n >= 2 vertices, every list of deletions, both classes, every interleaving, every moment of every call", "why_tests_cant": "It ranges over all graphs, all deletions and all schedules; a test runs one schedule of one of them.", "anchors": ["include/dktree/DKtree_background.hpp: add_edge, del_edge", "include/dktree/DKtree_background_wait.hpp: add_edge, del_edge"]}
{"id": "C102", "title": "Several threads reading one graph", "statement": "If several threads share one DKtree or DKtree_delay and only read it (contains, list_neighbour, the counters, loops over the edges, the neighbours of a vertex or the vertices, searches and triangle counts by Algorithm), then in every interleaving there is no data race, every call returns the right answer and all threads can finish. (False: the begin functions assign iterators that are members of the object and return references to them. It holds for threads no two of which use the same kind of iterator, a loop and an Algorithm not being used at the same time either; on any object, whatever its history, such threads get what they would get alone.)", "quantifier": "every number of threads, every program of questions depending on earlier answers, every interleaving, every graph built by insertions (or with settled deletions, or by DKtree_delay); for the comparison with a lone thread every object", "why_tests_cant": "Data races are invisible in most runs, and the claim ranges over all interleavings of any number of threads.", "anchors": ["include/dktree/DKtree.hpp: contains, list_neighbour, edge_begin, neighbour_begin, node_begin", "include/dktree/DKtree_delay.hpp", "include/algorithm/Algorithm.hpp: Algorithm, bfs, dfs, count_triangles_dummy_hash"]}
{"id": "C103", "title": "Several threads reading a background graph while its worker merges", "statement": "Any number of threads may call contains, list_neighbour, get_number_edges and get_number_nodes of one DKtree_background or DKtree_background_wait at the same time, while its worker merges: no data race, no failure, every answer is right and all threads can finish. (False while a merge is pending: list_neighbour races with the worker and hidden edges are reported absent. It holds without list_neighbour, except that hidden edges are reported absent, and for all queries when no merge is pending; an edge once reported present to one thread is reported present to every thread that asks later.)", "quantifier": "every history and schedule leading to the state, every number of threads, every program of queries, every interleaving of the threads and the worker, both classes", "why_tests_cant": "It ranges over all interleavings of any number of threads with the worker; a run shows one, and a race leaves no trace in most of them.", "anchors": ["include/dktree/DKtree_background.hpp: contains, list_neighbour, get_number_edges, worker", "include/dktree/DKtree_background_wait.hpp: contains, list_neighbour, get_number_edges, worker"]}
{"id": "C104", "title": "Threads that each work on their own copy of a graph", "statement": "Copies of a DKtree, one for each thread, can be used by the threads at the same time: each thread inserts, deletes and asks on its own copy as if it were alone; in every interleaving no data race and no failure, every answer is right for that thread's own graph, and all threads can finish. (False: the copies share trees. Two threads that loop over neighbours, or two that loop over edges, race in the iterators of the trees, and an edge one thread deletes from its copy disappears from the copies of the others. It holds for threads that delete nothing if at most one runs over neighbours and at most one over edges; membership, list_neighbour, counters, vertex loops and insertions are free for all.)", "quantifier": "every graph built by insertions, every number of threads, every program of calls per thread with calls depending on earlier answers, every interleaving", "why_tests_cant": "It ranges over all interleavings of any number of programs; whether a merge of one thread touches a tree another thread reads depends on both histories and on the schedule.", "anchors": ["include/dktree/DKtree.hpp: k_collection, add_edge, del_edge, contains, list_neighbour, neighbour_begin, edge_begin"]}
{"id": "C105", "title": "The graph a dataset describes is the graph the evaluation programs build, save and query", "statement": "From any dataset of lines `mark x y` (vertices below n, 2 ≤ n ≤ 9999999), `create` writes a folder, and the programs that load it (`contains`, `list`, both loops of `neighbor_iterator`, `edge_iterator`), run as often as one likes, answer exactly for the edges marked `a`: membership for each line asked, the neighbours of each vertex asked, each once, and as the number of arcs the number of distinct edges. `build_edges` reads the same edges. (`add_mean`, run on the same dataset, also inserts the edges marked otherwise; its graph answers for all of them.)", "quantifier": "every dataset with any marks, any number of lines and repetitions, every file of questions, every number of runs", "why_tests_cant": "The results must agree for every file; the run times printed by the programs say nothing about answers, and the programs drop them.", "anchors": ["evaluation/serialized/create.cpp", "evaluation/contains/contains.cpp", "evaluation/list_neighbor/list.cpp", "evaluation/neighbor_iterator/neighbor_iterator.cpp", "evaluation/edge_iterator/edge_iterator.cpp", "evaluation/delay_add_edge/add.cpp: build_edges", "evaluation/add_edge/add_mean.cpp"]}
{"id": "C106", "title": "create followed by delete leaves the edges that were not listed", "statement": "`create` on a dataset and then `delete` with a second file end without a failure, with a graph that shows exactly the edges marked `a` in the dataset that the second file does not list, in contains, list_neighbour and the counters. (False: the second file may make `delete` dereference a missing tree. It holds when at most one in seven of the edges of the dataset is listed, however often and with whatever other edges.)", "quantifier": "every dataset and every file of deletions", "why_tests_cant": "Whether a deletion hits the rebuild of the levels depends on the numbers of edges and deletions, not on any single call.", "anchors": ["evaluation/delete_edge/delete.cpp", "evaluation/serialized/create.cpp"]}
{"id": "C107", "title": "Reading a malformed dataset ends in an exception at worst", "statement": "Whatever the contents of a dataset, reading it ends with a list of edges or with an exception. (False: a line with fewer than two blanks, such as an empty one, makes the program read past the end of the vector of fields. It holds when every line has at least two blanks. Numbers from 2^31 on throw although vertices are unsigned 32-bit numbers, and `-x` is taken for the vertex 2^32 - x.)", "quantifier": "every file contents", "why_tests_cant": "It ranges over all files, including malformed ones.", "anchors": ["evaluation/delay_add_edge/add.cpp: build_edges", "evaluation/serialized/create.cpp: main"]}
{"id": "C108", "title": "Whichever class add is told to build, the dataset's edges are shown", "statement": "From a dataset of distinct edges (marked `a`), `add` builds with each of the five classes a graph that shows exactly these edges: DKtree and DKtree_delay in all queries, DKtree_delay_munro with the right count and, when no merge is pending, right membership, and both background classes with the right count and, at every moment without a merge pending, right membership and neighbours, on every schedule. (False: DKtree_delay and DKtree_delay_munro can stop at their assertions, which the Makefile leaves on. It holds for DKtree and both background classes, for DKtree_delay on 162 vertices or more, and for DKtree_delay_munro below MAXSZ(n,4) edges.)", "quantifier": "every dataset, every class, for the background classes every schedule", "why_tests_cant": "Whether an assertion fails depends on the sizes of all earlier merges; the background classes also on the schedule.", "anchors": ["evaluation/delay_add_edge/add.cpp: main, build_edges", "evaluation/delay_add_edge/Makefile"]}
{"id": "C109", "title": "The amortised cost of insertions survives floating-point thresholds", "statement": "C72 with the thresholds as a double library with relative error at most 2^-40 computes them, where adding an edge may even lower the buffer's capacity: for fewer than 2^52 vertices and insertions, all insertions into a DKtree with n >= 8 vertices together write at most 288*(log2 N)^(1/4) edges into k2_trees per insertion, and flush the buffer at most once every 0.999*MAXSZ(n,0) insertions.", "quantifier": "every sufficiently accurate library, every number of vertices >= 8 and every sequence of insertions, both below 2^52", "why_tests_cant": "a test runs one library on a few sequences; whether rounding can spoil an amortised bound is a question about all of them", "anchors": ["include/dktree/DKtree.hpp: add_edge", "include/dktree/utils.hpp: MAXSZ", "include/dktree/Container0.hpp: size"]}
{"id": "C110", "title": "Reorganisations are rare", "statement": "del_edge reorganises a DKtree (merges all its k2_trees into one) when too many edges are marked. Over any history from the empty graph of n vertices, the graphs it leaves have together, by get_number_edges(), at most 4/3*log2(log2 N) + 2 edges for each del_edge call made, N being the larger of 4 and the number of calls; with double arithmetic of relative error at most 2^-40, 27/20*log2(log2 N) + 2. All deletions together write at most 12*log2(log2 N) + 27 edges into k2_trees for each of them.", "quantifier": "every number of vertices and every history of add_edge and del_edge with vertices in range, whether or not it returns (calls up to the first that does not)", "why_tests_cant": "an amortised bound over all histories: adversarial interleavings of insertions and deletions that reorganise as often as possible cannot be enumerated", "anchors": ["include/dktree/DKtree.hpp: del_edge, add_edge, get_number_edges", "include/dktree/utils.hpp: TAU"]}
{"id": "C111", "title": "A reorganisation lasts", "statement": "Reorganising makes a graph forget its erased edges: if del_edge reorganises a DKtree or a DKtree_delay and the next call is again a del_edge, that one does not reorganise the graph once more, provided at least three edges are left.", "quantifier": "every number of vertices, every history of add_edge and del_edge in range, every pair of deletions after it", "why_tests_cant": "a test sees that a deletion is slow now and then; that two reorganisations never follow one another, in any history, it cannot see", "anchors": ["include/dktree/DKtree.hpp: del_edge", "include/dktree/DKtree_delay.hpp: del_edge", "include/dktree/utils.hpp: TAU"]}
