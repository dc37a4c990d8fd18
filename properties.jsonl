{"id": "C01", "title": "The event queue is a correct monotone priority queue", "statement": "Any legal sequence of enqueue and dequeue calls on the decoder's event queue behaves like a sorted multiset: each dequeue returns an event whose (64-bit) time is the minimum over everything still queued, the queue's clock advances to exactly that time, dequeue times never decrease, and dequeue on an empty queue reports 'no event' and leaves the queue unchanged. Legal means: every enqueued time is at or after the queue's clock and less than 2^31 after it.", "quantifier": "for every finite sequence of enqueues and dequeues that respects the time window, and every starting clock value", "why_tests_cant": "The bucket of an event depends on the xor of its 32-bit time with the clock, so correctness depends on every (clock, time) bit pattern and on every history of redistributions; tests sample a few hundred of 2^64 pairs.", "anchors": ["src/pymatching/sparse_blossom/tracker/radix_heap_queue.h: radix_heap_queue::enqueue, dequeue, cyclic_time_int, bit_width"]}
{"id": "C02", "title": "Cyclic 32-bit times compare and widen correctly across wrap-around", "statement": "For 64-bit times a and b that differ by less than 2^31, comparing their 32-bit truncations with the cyclic <, <=, >, >= gives the same answer as comparing a and b, for every position of a relative to the 2^32 wrap point; and widening a truncated time relative to a nearby 64-bit reference recovers the original time exactly.", "quantifier": "for every pair of 64-bit times whose difference is below half the cyclic period, including pairs straddling any multiple of 2^31 or 2^32", "why_tests_cant": "The failing inputs of an off-by-one would be single points among 2^64 pairs (distance exactly 2^31-1, 2^31, or 0), at every wrap position.", "anchors": ["src/pymatching/sparse_blossom/tracker/cyclic.h: cyclic::operator<, <=, >, >=, widen_from_nearby_reference"]}
{"id": "C03", "title": "The event queue neither loses nor duplicates events", "statement": "At every point of any legal history, the multiset of events ever enqueued equals the multiset dequeued so far plus the multiset still pending; size() equals the number pending, empty() is true iff none are pending, and clear() leaves an empty queue.", "quantifier": "for every finite history of enqueue, dequeue, clear", "why_tests_cant": "Loss can occur only on particular redistribution patterns (which bucket is split, in which order entries are moved).", "anchors": ["src/pymatching/sparse_blossom/tracker/radix_heap_queue.h: enqueue, dequeue, size, empty, clear"]}
{"id": "C04", "title": "Listing the pending events shows all of them", "statement": "The queue's snapshot (to_vector) and printed form list every pending event exactly once, in sorted time order for the snapshot, for every reachable queue state.", "quantifier": "for every reachable queue state", "why_tests_cant": "The one bucket that is skipped only becomes occupied when a pending event and the clock lie on opposite sides of a 2^31 boundary, i.e. after ~2^31 units of growth.", "anchors": ["src/pymatching/sparse_blossom/tracker/radix_heap_queue.h: to_vector, satisfies_invariants, operator<<"]}
{"id": "C05", "title": "A rescheduled wake-up is never lost", "statement": "If the owner of a wake-up tracker has asked to be woken at time T (and has not since asked for a different time or cancelled), then the event queue holds an event of that owner at some time at or before T; when that event is reached the tracker either reports the wake-up (if it is for T) or re-enqueues an event at T. Consequently processing the queue to exhaustion delivers the wake-up at exactly T.", "quantifier": "for every interleaving of set_desired_event, set_no_desired_event, event delivery and other owners' queue traffic", "why_tests_cant": "A lost wake-up needs a particular interleaving of postponing, advancing and cancelling relative to queue deliveries; the state space of histories is unbounded.", "anchors": ["src/pymatching/sparse_blossom/tracker/queued_event_tracker.h: QueuedEventTracker::set_desired_event, set_no_desired_event, dequeue_decision"]}
{"id": "C06", "title": "A wake-up is accepted only at the currently desired time and at most once", "statement": "When an event is delivered to a tracker, it is accepted iff the tracker currently desires exactly that time; after acceptance the tracker has no desire and later copies of the same event are ignored until a new desire is set. Stale or duplicate events never trigger an accept.", "quantifier": "for every history of tracker operations and deliveries, including stale and duplicated events", "why_tests_cant": "Requires all interleavings of stale queue entries with changed desires.", "anchors": ["src/pymatching/sparse_blossom/tracker/queued_event_tracker.h: QueuedEventTracker::dequeue_decision"]}
{"id": "C07", "title": "A region's radius changes continuously when its growth rate changes", "statement": "Switching a time-varying quantity to growing, shrinking or frozen at time t leaves its value at t unchanged and gives it slope +1, -1 or 0 afterwards; switching from growth to shrink and back yields the value predicted by adding the signed elapsed times.", "quantifier": "for every representable value, every time and every sequence of slope changes", "why_tests_cant": "The quantity packs slope and intercept in one integer using shifts; errors appear for particular signs or magnitudes of the intercept.", "anchors": ["src/pymatching/sparse_blossom/flooder_matcher_interop/varying.inl: Varying::get_distance_at_time, then_growing_at_time, then_shrinking_at_time, then_frozen_at_time, operator+, operator-"]}
{"id": "C08", "title": "Computed collision and zero-crossing times are exact", "statement": "For two radii of which at least one grows and none shrinks, the computed collision time is the unique time at which the radii sum to the given edge length (for two growing radii: exactly half the slack, exact whenever edge weights are even and radii have equal parity); before that time the sum is strictly smaller. The x-intercept of a shrinking radius is exactly the time at which it becomes zero. Two radii are reported as colliding iff their sum is increasing.", "quantifier": "for every pair of radii, edge length and slope combination", "why_tests_cant": "Needs all slope combinations and all parities of intercepts.", "anchors": ["src/pymatching/sparse_blossom/flooder_matcher_interop/varying.inl: time_of_x_intercept, time_of_x_intercept_when_added_to, colliding_with, is_growing, is_shrinking, is_frozen", "src/pymatching/sparse_blossom/flooder/graph_flooder.cc: find_next_event_at_node_returning_neighbor_index_and_time, find_next_event_at_node_not_occupied_by_growing_top_region, find_next_event_at_node_occupied_by_growing_top_region"]}
{"id": "C09", "title": "The region allocator never hands out a live object twice", "statement": "Through any sequence of allocations and deletions, the object returned by an allocation is not currently live; the number of live objects equals allocations minus deletions; deleting then allocating reuses storage without aliasing any live object.", "quantifier": "for every sequence of alloc/del calls in which each deletion is of a live object", "why_tests_cant": "Aliasing depends on the entire history of frees.", "anchors": ["src/pymatching/sparse_blossom/arena.h: Arena::alloc_unconstructed, alloc_default_constructed, del"]}
{"id": "C10", "title": "Compressed edges compose like walks", "statement": "Concatenating compressed edges along a walk gives the edge from the walk's start to its end whose observable mask is the xor over the walk's steps; reversing is an involution that swaps ends and keeps the mask; concatenation is associative and a walk followed by its reverse has empty mask.", "quantifier": "for every walk of any length", "why_tests_cant": "Universal algebraic law over unbounded walks.", "anchors": ["src/pymatching/sparse_blossom/flooder_matcher_interop/compressed_edge.h: CompressedEdge::reversed, merged_with"]}
{"id": "C11", "title": "Observable masks and bit vectors convert losslessly", "statement": "For up to 64 observables, turning a prediction bit vector into an observable mask and back gives the same bits: mask bit i is set iff vector entry i is 1; filling a bit vector from a mask xors bit i of the mask into entry i and requests for more than 64 observables are rejected.", "quantifier": "for every number of observables up to 64 and every bit pattern", "why_tests_cant": "2^64 patterns; the failing ones need an observable with index at least 31.", "anchors": ["src/pymatching/sparse_blossom/driver/mwpm_decoding.cc: fill_bit_vector_from_obs_mask, bit_vector_to_obs_mask"]}
{"id": "C12", "title": "Temporary reweighting is undone exactly", "statement": "Applying any list of conditional reweights to the decoding graph and then undoing them restores every edge weight (seen from both endpoints) exactly; while applied, no edge weight is larger than it was before, and each targeted edge has weight min(original, all its implied weights).", "quantifier": "for every graph and every list of reweights, including lists that hit the same edge several times", "why_tests_cant": "Restoration depends on order when the same edge is targeted repeatedly or from both of its ends; lists are unbounded.", "anchors": ["src/pymatching/sparse_blossom/flooder/graph.cc: MatchingGraph::reweight, reweight_for_edge, undo_reweights", "src/pymatching/sparse_blossom/search/search_graph.cc: SearchGraph::reweight, undo_reweights", "src/pymatching/sparse_blossom/driver/implied_weights.h"]}
{"id": "C13", "title": "The decoding graph is symmetric with the boundary first", "statement": "After any sequence of edge insertions, node u lists v as a neighbour with weight w and observables O exactly as many times as v lists u with the same w and O; a boundary edge, if present, is the first entry of its node; stored weights are the absolute values of the inserted weights; self-loops are not stored.", "quantifier": "for every sequence of add_edge / add_boundary_edge calls", "why_tests_cant": "Invariant over unbounded construction histories.", "anchors": ["src/pymatching/sparse_blossom/flooder/graph.cc: MatchingGraph::add_edge, add_boundary_edge", "src/pymatching/sparse_blossom/search/search_graph.cc: SearchGraph::add_edge, add_boundary_edge"]}
{"id": "C14", "title": "Negative edge weights are handled without losing optimality", "statement": "Solving the problem with absolute weights for the syndrome xor the parity of the negative-weight edges, and then xoring the solution with the set of negative edges, yields a minimum-weight solution of the original problem; its original weight equals the absolute-weight solution's weight plus the sum of the negative weights, and its observables are the xor of the solution's and the negative edges' observables.", "quantifier": "for every graph with arbitrary integer weights, every syndrome and every optimal absolute-weight solution", "why_tests_cant": "An optimality statement quantifies over all alternative solutions on all graphs.", "anchors": ["src/pymatching/sparse_blossom/flooder/graph.cc: update_negative_weight_observables, update_negative_weight_detection_events, add_edge", "src/pymatching/sparse_blossom/driver/mwpm_decoding.cc: process_timeline_until_completion, decode_detection_events, decode_detection_events_to_edges"]}
{"id": "C15", "title": "Negative-edge bookkeeping matches the inserted edges", "statement": "After any sequence of insertions, the set of nodes the decoder pre-flips is exactly the set of detector nodes incident (as a non-boundary endpoint) to an odd number of negative-weight insertions, the pre-flipped observables are exactly those appearing in an odd number of negative insertions, and the recorded negative weight sum is the sum of the negative weights.", "quantifier": "for every sequence of insertions", "why_tests_cant": "Parity over unbounded insertion histories including repeats of the same edge.", "anchors": ["src/pymatching/sparse_blossom/flooder/graph.cc: add_edge, add_boundary_edge, update_negative_weight_observables, update_negative_weight_detection_events"]}
{"id": "C16", "title": "The user graph stores at most one edge per node pair and lookups are consistent", "statement": "After any sequence of add_edge, add_boundary_edge and merge calls, no two stored edges connect the same unordered pair of nodes (nor the same node to the virtual boundary); has_edge(u,v)=has_edge(v,u) and holds iff an edge between u and v was successfully added; get_edge_data finds that edge from both ends; a rejected insertion ('disallow') leaves the graph unchanged.", "quantifier": "for every sequence of edge insertions with any merge strategies", "why_tests_cant": "Invariant over unbounded histories of API calls.", "anchors": ["src/pymatching/sparse_blossom/driver/user_graph.cc: UserGraph::add_or_merge_edge, add_or_merge_boundary_edge, has_edge, has_boundary_edge, merge_edge_or_boundary_edge", "src/pymatching/sparse_blossom/driver/user_graph.h: UserNode::index_of_neighbor"]}
{"id": "C17", "title": "Merging parallel edges follows the documented strategy", "statement": "When an edge is added where one already exists: 'disallow' raises; 'independent' keeps the first edge's fault ids and sets the error probability to p1(1-p2)+p2(1-p1) when both are known and to 'unknown' otherwise, with the merged log-likelihood weight; 'smallest-weight' ends up with the data of the lightest edge (the earliest among equals); 'keep-original' always keeps the first; 'replace' always keeps the last.", "quantifier": "for every sequence of parallel edge additions with each strategy", "why_tests_cant": "Universal over histories and real-valued weights.", "anchors": ["src/pymatching/sparse_blossom/driver/user_graph.cc: merge_edge_or_boundary_edge, merge_weights", "src/pymatching/sparse_blossom/driver/user_graph.pybind.cc: merge_strategy_from_string"]}
{"id": "C18", "title": "The number of fault ids covers every stored fault id", "statement": "At all times num_fault_ids is strictly greater than every fault id attached to any edge of the graph, so that every prediction buffer sized by num_fault_ids can be indexed by any stored fault id.", "quantifier": "for every history of API calls that modify the graph", "why_tests_cant": "Only particular combinations of merge strategy and larger fault ids break it.", "anchors": ["src/pymatching/sparse_blossom/driver/user_graph.cc: add_or_merge_edge, merge_edge_or_boundary_edge, get_num_observables, set_min_num_observables"]}
{"id": "C19", "title": "Weight discretisation is exact for integral weights and faithful otherwise", "statement": "Discretised edge weights are even integers of magnitude at most 2*(2^24-1); discretisation is monotone and odd in the weight, the discretised weight divided by the reported normalising constant differs from the true weight by at most half a discretisation step; if all weights are integers (of magnitude below 2^24) division by the normalising constant recovers every weight exactly.", "quantifier": "for every list of real edge weights", "why_tests_cant": "Real-valued inputs; extreme ratios of weights.", "anchors": ["src/pymatching/sparse_blossom/driver/user_graph.cc: get_edge_weight_normalising_constant, to_matching_or_search_graph_helper", "src/pymatching/sparse_blossom/driver/user_graph.h: iter_discretized_edges, to_matching_or_search_graph_helper"]}
{"id": "C20", "title": "'independent' merging computes the exact log-likelihood of the combined error", "statement": "The weight obtained by merging two parallel independent edges with weights log((1-p1)/p1) and log((1-p2)/p2) equals log((1-p)/p) with p=p1(1-p2)+p2(1-p1); merging is commutative and associative on weights, and the merged weight's magnitude never exceeds the smaller magnitude.", "quantifier": "for all probabilities strictly between 0 and 1 (equivalently, all real weights)", "why_tests_cant": "Real-analytic identity; tests check isolated floating-point samples.", "anchors": ["src/pymatching/sparse_blossom/driver/user_graph.cc: merge_weights, bernoulli_xor, to_weight_for_correlations"]}
{"id": "C21", "title": "Loading a detector error model keeps exactly its graph-like components", "statement": "Loading a detector error model without correlations: every error mechanism with non-zero probability contributes each of its components that has one or two detectors as an (independently merged) edge with weight log((1-p)/p), components with other detector counts are ignored, instructions of probability zero contribute nothing, detector and observable counts equal those of the model.", "quantifier": "for every detector error model (flattened instruction list)", "why_tests_cant": "Unbounded inputs with arbitrary separators, repeated detectors and order.", "anchors": ["src/pymatching/sparse_blossom/driver/user_graph.h: iter_dem_instructions_include_correlations, iter_detector_error_model_edges", "src/pymatching/sparse_blossom/driver/user_graph.cc: detector_error_model_to_user_graph, handle_dem_instruction"]}
{"id": "C22", "title": "Joint probabilities of correlated edges are symmetric and implied weights are non-negative", "statement": "When loading with correlations, the joint probability recorded for edge a together with edge b equals that for b together with a, equals the probability that an odd number of the mechanisms containing both fire, and every implied weight derived from them is non-negative and at most corresponds to probability one half.", "quantifier": "for every detector error model", "why_tests_cant": "Unbounded sets of mechanisms; symmetric update order effects.", "anchors": ["src/pymatching/sparse_blossom/driver/user_graph.h: iter_dem_instructions_include_correlations", "src/pymatching/sparse_blossom/driver/user_graph.cc: populate_implied_edge_weights, to_weight_for_correlations"]}
{"id": "C23", "title": "Check matrix loading creates the documented graph", "statement": "Loading a check matrix: a column with two non-zero rows becomes an edge between those rows in every repetition (offset by repetition*rows); a column with one non-zero row becomes a boundary edge (virtual, or to one shared boundary node after all detectors); a column without entries is ignored and one with more than two is rejected; with several repetitions each row gets a time-like edge between consecutive repetitions; wrong lengths of weight, probability and timelike arrays are rejected; fault ids are the column index, or the rows of the faults matrix column.", "quantifier": "for every check matrix, repetition count and option combination", "why_tests_cant": "Unbounded matrices; index arithmetic across repetitions.", "anchors": ["src/pymatching/sparse_blossom/driver/user_graph.pybind.cc: sparse_column_check_matrix_to_matching_graph, CompressedSparseColumnCheckMatrix"]}
{"id": "C24", "title": "Edge-level decoding returns each edge of odd multiplicity exactly once and leaves no marks behind", "statement": "Given any list of paths whose edges are toggled, the edge list returned contains exactly the edges that occur an odd number of times in the paths (each once, in either orientation), the xor of its endpoints equals the xor of the paths' endpoints, and afterwards no edge is left marked, so subsequent decodes are unaffected.", "quantifier": "for every graph and every multiset of paths (graphs in which any two connected detectors are joined by a path whose rounded weight is below 2^31, e.g. by at most 64 edges: see C61)", "why_tests_cant": "Parity cancellation over unbounded overlapping paths.", "anchors": ["src/pymatching/sparse_blossom/search/search_flooder.h: iter_edges_on_path_traced_back_from_node, iter_edges_on_shortest_path_from_middle, iter_edges_tracing_back_from_collision_edge", "src/pymatching/sparse_blossom/driver/mwpm_decoding.cc: decode_detection_events_to_edges", "src/pymatching/sparse_blossom/search/search_graph.cc"]}
{"id": "C25", "title": "The path returned between two detectors is a shortest path", "statement": "The path search between two detection events (or a detection event and the boundary) returns a walk of the decoding graph between exactly those end points whose total weight is minimal among all walks between them (never passing through the boundary).", "quantifier": "for every graph with non-negative weights and every pair of connected distinct endpoints", "why_tests_cant": "Optimality over all walks on all graphs.", "anchors": ["src/pymatching/sparse_blossom/search/search_flooder.cc: SearchFlooder::run_until_collision, do_look_at_node_event", "src/pymatching/sparse_blossom/search/search_flooder.h: iter_edges_on_shortest_path_from_source"]}
{"id": "C26", "title": "Path search with unreachable targets is rejected", "statement": "Asking for the path between nodes that are not connected (or from a node to itself) reports an error or the empty path; it never reads invalid memory.", "quantifier": "for every graph and pair of nodes", "why_tests_cant": "Memory safety on failure inputs that the test-suite does not exercise.", "anchors": ["src/pymatching/sparse_blossom/search/search_flooder.cc: run_until_collision", "src/pymatching/sparse_blossom/search/search_flooder.h: iter_edges_on_shortest_path_from_source", "src/pymatching/sparse_blossom/driver/user_graph.cc: get_nodes_on_shortest_path_from_source"]}
{"id": "C27", "title": "Re-rooting an alternating tree preserves its edges and vertices", "statement": "Making any node of an alternating tree the root keeps the set of tree nodes and the set of undirected tree edges with their observable masks; the chosen node becomes the root, and every node is still reachable from it.", "quantifier": "for every alternating tree and every node in it", "why_tests_cant": "Structural induction over unbounded trees.", "anchors": ["src/pymatching/sparse_blossom/matcher/alternating_tree.cc: AltTreeNode::become_root"]}
{"id": "C28", "title": "Splitting and pruning an alternating tree keeps every other node", "statement": "Removing a child, appending children and pruning the path between two nodes of the tree partitions the nodes of the tree into the pruned cycle and the orphaned subtrees: nothing is lost or duplicated; the pruned path together with the collision edge forms an odd cycle of regions through both nodes and their most recent common ancestor.", "quantifier": "for every tree and pair of nodes", "why_tests_cant": "Structural induction over unbounded trees.", "anchors": ["src/pymatching/sparse_blossom/matcher/alternating_tree.cc: most_recent_common_ancestor, prune_upward_path_stopping_before, all_nodes_in_tree", "src/pymatching/sparse_blossom/matcher/alternating_tree.h: unstable_erase, move_append", "src/pymatching/sparse_blossom/matcher/mwpm.cc: handle_tree_hitting_self"]}
{"id": "C29", "title": "Dissolving a blossom yields a perfect matching of its detection events", "statement": "When a matched blossom is dissolved at the end of decoding, its detection events are partitioned into the one that is connected to the outside match and pairs matched along blossom cycle edges; each detection event appears exactly once, recursively for nested blossoms, and the accumulated observables are the xor of the masks of the matching edges used.", "quantifier": "for every nesting of blossoms with any odd cycle lengths (graphs in which any two connected detectors are joined by a path whose rounded weight is below 2^31, e.g. by at most 64 edges: see C61)", "why_tests_cant": "Unbounded nesting depth and cycle lengths; all positions of the outside contact.", "anchors": ["src/pymatching/sparse_blossom/matcher/mwpm.cc: shatter_blossom_and_extract_matches, pair_and_shatter_subblossoms_and_extract_matches, shatter_blossom_and_extract_match_edges"]}
{"id": "C30", "title": "When a shrunken blossom reopens inside a tree, the tree stays alternating", "statement": "When a blossom that is a tree node shatters, the child regions on the even-length side of the blossom cycle between the two tree contacts are threaded into the tree as alternating shrinking/growing nodes and all remaining children are paired off as matches; every child region is used exactly once and the numbers add up for either parity.", "quantifier": "for every odd blossom cycle length and every pair of contact positions (graphs in which any two connected detectors are joined by a path whose rounded weight is below 2^31, e.g. by at most 64 edges: see C61)", "why_tests_cant": "Index arithmetic modulo the cycle length; all lengths and positions.", "anchors": ["src/pymatching/sparse_blossom/matcher/mwpm.cc: handle_blossom_shattering"]}
{"id": "C31", "title": "Matchings certified by dual variables are minimum weight", "statement": "If at the end of decoding the radii of the regions (dual variables) are non-negative, no two regions overlap (dual feasibility) and every matched pair is tight, then the total weight of the returned matching is at most that of every other perfect matching (to the boundary allowed), and equals the sum of all radii.", "quantifier": "for every decoding problem and every competitor matching (graphs in which any two connected detectors are joined by a path whose rounded weight is below 2^31, e.g. by at most 64 edges: see C61)", "why_tests_cant": "Optimality quantifies over exponentially many alternatives.", "anchors": ["src/pymatching/sparse_blossom/matcher/mwpm.cc: shatter_blossom_and_extract_matches (weight = sum of radii), process_event", "src/pymatching/sparse_blossom/flooder/graph_flooder.cc"]}
{"id": "C32", "title": "Decoding one shot never affects the next", "statement": "After a decode the decoder holds nothing of it (all nodes unoccupied, queue empty, no regions or trees in use, weights as built), so any sequence of calls on one decoder gives for each call exactly the reply (predictions, weight, edges, matched pairs in the same order, or exception) that the call gets alone from a new decoder; so a batch gives for each shot the result of decoding it alone, in any order.", "quantifier": "for every graph, every sequence of calls with valid detection events (graphs in which any two connected detectors are joined by a path whose rounded weight is below 2^31, e.g. by at most 64 edges: see C61)", "why_tests_cant": "History independence over unbounded shot sequences.", "anchors": ["src/pymatching/sparse_blossom/flooder/detector_node.cc: DetectorNode::reset", "src/pymatching/sparse_blossom/flooder/graph_flooder.cc", "src/pymatching/sparse_blossom/matcher/mwpm.cc: Mwpm::reset, shatter_blossom_and_extract_matches", "src/pymatching/sparse_blossom/driver/mwpm_decoding.cc: decode_detection_events"]}
{"id": "C33", "title": "An invalid detection event leaves the decoder usable", "statement": "Decoding a list that contains an out-of-range detection event raises an error and a following decode of a valid list returns the same result as if the failed call had never been made.", "quantifier": "for every graph and list of detection events", "why_tests_cant": "Requires the history (failed call, then valid call) on particular graphs; error paths are not explored by result-checking tests.", "anchors": ["src/pymatching/sparse_blossom/driver/mwpm_decoding.cc: process_timeline_until_completion", "src/pymatching/sparse_blossom/driver/user_graph.pybind.cc: decode, decode_batch"]}
{"id": "C34", "title": "Bit-packed and unpacked batch decoding agree", "statement": "Decoding a batch given as bit-packed shots reads detection event 8*k+j iff bit j of byte k is set, agreeing with the unpacked form; bit-packed predictions contain prediction i in bit i mod 8 of byte i div 8, and unpacking them gives the unpacked predictions, with zero padding bits.", "quantifier": "for every number of detectors, observables and shots and all contents", "why_tests_cant": "Bit-level indexing for all sizes and alignments.", "anchors": ["src/pymatching/sparse_blossom/driver/user_graph.pybind.cc: decode_batch"]}
{"id": "C35", "title": "Detection events on boundary nodes are ignored and counts are consistent", "statement": "num_detectors = num_nodes - number of boundary nodes; the detection events at nodes designated as boundary never affect a decode; edges between two boundary nodes never affect a decode; among several edges from one detector to boundary nodes only the lightest affects a decode.", "quantifier": "for every user graph and every syndrome", "why_tests_cant": "Universal over graphs and syndromes.", "anchors": ["src/pymatching/sparse_blossom/driver/user_graph.cc: get_num_detectors, is_boundary_node", "src/pymatching/sparse_blossom/driver/user_graph.h: to_matching_or_search_graph_helper", "src/pymatching/sparse_blossom/flooder/graph.cc: is_user_graph_boundary_node"]}
{"id": "C36", "title": "Simulated noise and syndrome are consistent", "statement": "add_noise returns an error vector and a syndrome such that, for some subset of edges, the error vector is the xor of the fault ids of the subset and the syndrome of a non-boundary node is the parity of chosen edges incident to it, and boundary nodes always get syndrome 0.", "quantifier": "for every graph and every outcome of the random source", "why_tests_cant": "All random outcomes on all graphs.", "anchors": ["src/pymatching/sparse_blossom/driver/user_graph.cc: UserGraph::add_noise", "src/pymatching/rand/rand_gen.cc"]}
{"id": "C37", "title": "Syndrome arrays map to detection events one to one", "statement": "A 1-D syndrome of length between num_detectors and num_detectors+len(boundary) selects exactly the indices of its non-zero entries; a 2-D syndrome with r rows and c columns, r*c=num_detectors, selects index j*r+i for entry (i,j); distinct syndromes give distinct event sets; other shapes are rejected.", "quantifier": "for every array shape and content", "why_tests_cant": "Index arithmetic for all shapes.", "anchors": ["src/pymatching/matching.py: Matching._syndrome_array_to_detection_events"]}
{"id": "C38", "title": "Matched-pair outputs list each detection event exactly once and the dictionary is symmetric", "statement": "decode_to_matched_dets_array lists each detection event in exactly one pair (boundary as -1 in the second position); the dictionary form maps a to b iff it maps b to a, and boundary matches to None.", "quantifier": "for every decoding problem (graphs in which any two connected detectors are joined by a path whose rounded weight is below 2^31, e.g. by at most 64 edges: see C61)", "why_tests_cant": "Universal over syndromes.", "anchors": ["src/pymatching/sparse_blossom/driver/user_graph.pybind.cc: decode_to_matched_detection_events_array, decode_to_matched_detection_events_dict", "src/pymatching/sparse_blossom/driver/mwpm_decoding.cc: decode_detection_events_to_match_edges"]}
{"id": "C39", "title": "Cached region radii at nodes equal the recomputed radii", "statement": "While regions grow, nest and dissolve, the cached wrapped radius of every node equals the sum of the radii of the regions covering it inside its top region minus its radius of arrival; hence distances computed from the cache are exact.", "quantifier": "for every history of region growth, blossom formation and shattering (graphs in which any two connected detectors are joined by a path whose rounded weight is below 2^31, e.g. by at most 64 edges: see C61)", "why_tests_cant": "Invariant over unbounded histories of nesting.", "anchors": ["src/pymatching/sparse_blossom/flooder/detector_node.cc: compute_wrapped_radius, local_radius", "src/pymatching/sparse_blossom/flooder/graph_fill_region.cc: wrap_into_blossom, clear_blossom_parent", "src/pymatching/sparse_blossom/flooder/graph_fill_region.h: do_op_for_each_node_in_total_area", "src/pymatching/sparse_blossom/flooder/graph_flooder.cc: create_blossom, do_blossom_shattering"]}
{"id": "C40", "title": "The next event computed at a node is the earliest one", "statement": "The event time scheduled for an unoccupied-or-occupied node is the minimum over its edges of the time at which something happens on that edge (arrival at an empty neighbour, collision with another region, reaching the boundary), and the reported edge attains it; if nothing can happen no event is scheduled.", "quantifier": "for every node, neighbourhood and configuration of regions (graphs in which any two connected detectors are joined by a path whose rounded weight is below 2^31, e.g. by at most 64 edges: see C61)", "why_tests_cant": "All neighbour configurations and slopes.", "anchors": ["src/pymatching/sparse_blossom/flooder/graph_flooder.cc: find_next_event_at_node_returning_neighbor_index_and_time, find_next_event_at_node_not_occupied_by_growing_top_region, find_next_event_at_node_occupied_by_growing_top_region, find_next_event_at_node_occupied_by_growing_top_region, ..._not_occupied_by_growing_top_region"]}
{"id": "C41", "title": "The reported weight is the weight of the reported correction", "statement": "The weight returned by decode equals, after scaling by the normalising constant, the sum of the (discretised) weights of the edges returned by edge-level decoding of the same syndrome, for any number of observables.", "quantifier": "for every decoding problem (graphs in which any two connected detectors are joined by a path whose rounded weight is below 2^31, e.g. by at most 64 edges: see C61)", "why_tests_cant": "Relates two decoding paths on all inputs.", "anchors": ["src/pymatching/sparse_blossom/driver/mwpm_decoding.cc: decode_detection_events, decode_detection_events_to_edges", "src/pymatching/sparse_blossom/driver/user_graph.pybind.cc: decode"]}
{"id": "C42", "title": "Very heavy edges are dropped and invalid nodes are rejected", "statement": "Adding an edge whose absolute weight exceeds 2^24-1 (or is not a number smaller than it) leaves the graph unchanged apart from a warning; node indices that are negative are rejected without changing the graph.", "quantifier": "for every call", "why_tests_cant": "All real weights including boundary values.", "anchors": ["src/pymatching/sparse_blossom/driver/user_graph.pybind.cc: add_edge, add_boundary_edge", "src/pymatching/sparse_blossom/driver/user_graph.cc: add_or_merge_edge"]}
{"id": "C43", "title": "The cached decoder always reflects the current graph", "statement": "After any sequence of graph modifications and decodes, the decoder used by decode is the one that would be built from the current graph.", "quantifier": "for every interleaving of modifications and decodes", "why_tests_cant": "Cache invalidation over unbounded histories.", "anchors": ["src/pymatching/sparse_blossom/driver/user_graph.cc: get_mwpm, update_mwpm, get_mwpm_with_search_graph, set_boundary, set_min_num_observables, add_or_merge_edge", "src/pymatching/sparse_blossom/driver/user_graph.h: _mwpm_needs_updating"]}
{"id": "C44", "title": "Command-line mistake counting and prediction follow the decoder", "statement": "`count_mistakes` prints the number of shots whose predicted observables differ from the recorded ones together with the number of shots; `predict` writes exactly one record per shot, in order, containing the decoder's prediction.", "quantifier": "for every list of shots", "why_tests_cant": "Unbounded input streams.", "anchors": ["src/pymatching/sparse_blossom/driver/namespaced_main.cc: main_count_mistakes, main_predict"]}
{"id": "C45", "title": "Exporting to a networkx/rustworkx graph and importing back preserves the decoding problem", "statement": "Converting a Matching to networkx or rustworkx and loading it back gives the same edges, fault ids, weights and probabilities, with virtual-boundary edges now attached to one extra boundary node, and the same set of optimal corrections.", "quantifier": "for every graph", "why_tests_cant": "Universal over graphs including isolated nodes.", "anchors": ["src/pymatching/matching.py: to_networkx, load_from_networkx, to_rustworkx, load_from_rustworkx"]}
{"id": "C46", "title": "The correction returned by decode explains the syndrome and has minimum weight", "statement": "Whenever decode returns, the predicted observables and the weight are those of a set of edges of the decoding graph whose odd-degree detectors are exactly the given detection events, and no set of edges with the same odd-degree detectors has smaller weight. decode raises only if no set of edges explains the events.", "quantifier": "for every graph and syndrome for which decode returns (graphs in which any two connected detectors are joined by a path whose rounded weight is below 2^31, e.g. by at most 64 edges: see C61)", "why_tests_cant": "Universal over problems and internal schedules.", "anchors": ["src/pymatching/sparse_blossom/matcher/mwpm.cc", "src/pymatching/sparse_blossom/flooder/graph_flooder.cc", "src/pymatching/sparse_blossom/driver/mwpm_decoding.cc"]}
{"id": "C47", "title": "If the graph reports error probabilities on all edges, they are probabilities", "statement": "Whenever the graph reports that all edges have error probabilities (the condition under which noise can be sampled), every stored error probability lies in [0, 1], after any sequence of edge insertions and merges with any strategy.", "quantifier": "for every sequence of edge insertions, merges and boundary changes", "why_tests_cant": "Unbounded histories, all merge strategies.", "anchors": ["src/pymatching/sparse_blossom/driver/user_graph.cc: add_or_merge_edge, add_or_merge_boundary_edge, all_edges_have_error_probabilities, merge_edge_or_boundary_edge, add_noise"]}
{"id": "C48", "title": "Rounding of weights costs at most one unit per edge", "statement": "The weight reported by decode differs from the sum of the weights that the user gave to the edges of the correction by at most one rounding unit per edge; a correction that is optimal for the rounded weights is worse than any other by at most one unit per edge of both corrections; if all weights are integers (of absolute value at most 2^24-1) nothing is lost.", "quantifier": "for every graph built through the public interface and every pair of corrections", "why_tests_cant": "Universal over graphs, weights and corrections.", "anchors": ["src/pymatching/sparse_blossom/driver/user_graph.h: iter_discretized_edges", "src/pymatching/sparse_blossom/driver/user_graph.cc: get_edge_weight_normalising_constant", "src/pymatching/sparse_blossom/driver/user_graph.pybind.cc: decode"]}
{"id": "C49", "title": "decode is minimum weight for the graph as the user entered it", "statement": "For every graph built by any sequence of add_edge, add_boundary_edge and set_boundary_nodes calls, decode returns the fault ids and the weight of a set of the user's own edges (including edges to boundary nodes and to the virtual boundary) that explains the detection events and has least total (rounded) weight among all such sets; if no set of edges explains the events it raises.", "quantifier": "for every history of API calls, every earlier use of the decoder and every set of detection events (graphs in which any two connected detectors are joined by a path whose rounded weight is below 2^31, e.g. by at most 64 edges: see C61)", "why_tests_cant": "Universal over graphs, negative weights, boundary nodes and exponentially many alternative corrections.", "anchors": ["src/pymatching/sparse_blossom/driver/user_graph.h: to_matching_or_search_graph_helper", "src/pymatching/sparse_blossom/driver/user_graph.cc: to_matching_graph, to_mwpm", "src/pymatching/sparse_blossom/driver/mwpm_decoding.cc: decode_detection_events"]}
{"id": "C50", "title": "decode always terminates", "statement": "For every decoding graph whose edge weights are nonnegative after negative-weight preprocessing, and every set of detection events, the decoding loop finishes after finitely many events: decode returns a correction or raises because none exists, it never runs forever.", "quantifier": "for every graph and every set of detection events, after any earlier decodes", "why_tests_cant": "Non-termination cannot be observed by a test; the loop is driven by a queue that the body refills, and blossoms can form and shatter many times.", "anchors": ["src/pymatching/sparse_blossom/flooder/graph_flooder.cc: run_until_next_mwpm_notification, look_at_node_event, do_region_shrinking", "src/pymatching/sparse_blossom/matcher/mwpm.cc: process_event", "src/pymatching/sparse_blossom/driver/mwpm_decoding.cc: process_timeline_until_completion"]}
{"id": "C51", "title": "Correlated decoding is minimum weight for the conditional weights, and leaves no trace", "statement": "Decoding with enable_correlations=True first finds a set of edges of least weight that explains the detection events; the prediction and the weight it returns (and the edges, when decoding to edges) are those of a set of edges that explains the events and has least weight when every edge has the smallest of its own weight and the weights implied for it by the edges of the first set. It ends for all events; it raises only if no set of edges explains the events (or if the graph was loaded without correlations). Afterwards, also after an exception, all weights are as before, so later calls, with or without correlations, are not affected.", "quantifier": "for every graph with implied weights for edges of nonnegative weight (C52 is about the others), every earlier use of the decoder with and without correlations, and every set of detection events (graphs in which any two connected detectors are joined by a path whose rounded weight is below 2^31, e.g. by at most 64 edges: see C61)", "why_tests_cant": "Universal over graphs, rules and histories; a test cannot compare against all corrections nor see every history, in particular failing calls between successful ones.", "anchors": ["src/pymatching/sparse_blossom/driver/mwpm_decoding.cc: decode_detection_events, decode_detection_events_for_up_to_64_observables, decode_detection_events_to_edges_with_edge_correlations", "src/pymatching/sparse_blossom/flooder/graph.cc: convert_implied_weights, reweight_for_edges, undo_reweights", "src/pymatching/sparse_blossom/search/search_graph.cc: convert_implied_weights, reweight_for_edges, undo_reweights"]}
{"id": "C52", "title": "The weight returned by correlated decoding is the weight of an explanation", "statement": "The weight that decoding with enable_correlations=True returns is the total weight of a set of edges that explains the detection events, where every edge has its own weight or one that is implied for it by an edge of the first pass.", "quantifier": "for every graph with implied weights that is accepted (also with edges of negative weight), and every set of detection events (graphs in which any two connected detectors are joined by a path whose rounded weight is below 2^31, e.g. by at most 64 edges: see C61)", "why_tests_cant": "Needs a rule for an edge of negative weight whose implied weight is 0, which no test has; only a comparison with all explanations shows that the weight belongs to none.", "anchors": ["src/pymatching/sparse_blossom/driver/mwpm_decoding.cc: decode_detection_events_for_up_to_64_observables", "src/pymatching/sparse_blossom/driver/user_graph.cc: get_edge_weight_normalising_constant", "src/pymatching/sparse_blossom/flooder/graph.h: apply_reweights"]}
{"id": "C53", "title": "Correlated decoding of a detector error model uses the conditional probabilities of the model", "statement": "Load a detector error model with enable_correlations=True.  Unless a component names one detector twice or a weight is larger than 2^24-1, the decoder can be built.  Decoding any detection events with enable_correlations=True then returns the predictions, the weight and the edges of a set of edges that explains the events and has least total weight, where the weight of each edge is the least of its own and those that the edges of some minimum-weight solution imply for it: for an edge sharing an error with it, the (rounded) log-likelihood ratio of min(1/2, joint probability / marginal probability).  It raises exactly if nothing explains the events.", "quantifier": "for every detector error model with probabilities at most 1/2, every earlier use of the decoder, and every set of detection events (graphs in which any two connected detectors are joined by a path whose rounded weight is below 2^31, e.g. by at most 64 edges: see C61)", "why_tests_cant": "The claim compares with all explanations of all syndromes of all models, and with the probabilities of the model rather than with stored numbers.", "anchors": ["src/pymatching/sparse_blossom/driver/user_graph.cc: detector_error_model_to_user_graph", "src/pymatching/sparse_blossom/driver/user_graph.cc: populate_implied_edge_weights", "src/pymatching/sparse_blossom/driver/mwpm_decoding.cc: decode_detection_events", "src/pymatching/matching.py: Matching.from_detector_error_model"]}
{"id": "C54", "title": "An object always answers for its current graph, as if nothing had been asked before", "statement": "Take any sequence of calls on one matching object that mixes modifications (add_edge, add_boundary_edge, set_boundary_nodes, ensure_num_fault_ids) with questions (decode, decode_batch, decode_to_edges_array, decode_to_matched_dets_array, shortest path queries, with and without correlations). Every question ends, and its answer (predictions, weights, edges with their order, pairs with their order, nodes, or the exception) is exactly what a newly created object with the same graph returns as its first answer. Questions never change later answers, and the cached decoder is never stale.", "quantifier": "for every sequence of modifications and questions of any length, in any order, in which detection events are nodes of the graph, fault ids are below num_fault_ids, correlations are asked for only without negative weights, and ensure_num_fault_ids does not raise the number after a question (C43) (graphs in which any two connected detectors are joined by a path whose rounded weight is below 2^31, e.g. by at most 64 edges: see C61)", "why_tests_cant": "The cache, the reused search graph and the reused internal state make answers depend on the order of calls in principle; tests try a handful of orders, the claim is about all of them.", "anchors": ["src/pymatching/sparse_blossom/driver/user_graph.cc: get_mwpm, get_mwpm_with_search_graph, to_mwpm, add_or_merge_edge, set_boundary", "src/pymatching/sparse_blossom/driver/user_graph.pybind.cc: decode, decode_batch, decode_to_edges_array, decode_to_matched_detection_events_array"]}
{"id": "C55", "title": "decode_batch is decode row by row", "statement": "The predictions and weights returned by decode_batch are, row by row, those of decode for the detection events of the row, bit-packed if bit_packed_predictions is set; bit-packed and unpacked shots with the same detection events give the same answer; decode_batch raises if the shape is wrong, and otherwise only if decode raises for one of the rows.", "quantifier": "for every graph, every number of shots, all combinations of bit_packed_shots, bit_packed_predictions and enable_correlations (graphs in which any two connected detectors are joined by a path whose rounded weight is below 2^31, e.g. by at most 64 edges: see C61)", "why_tests_cant": "One decoder is reused for all rows; the claim is about every position in every batch.", "anchors": ["src/pymatching/sparse_blossom/driver/user_graph.pybind.cc: decode_batch, decode"]}
{"id": "C56", "title": "Decoding a detector error model finds most likely errors, up to rounding", "statement": "Load a detector error model in which every error that can happen flips one or two detectors (no suggested decompositions), and decode any detection events. If errors that can happen explain the events, decode returns: the predictions are those of errors that flip exactly these detectors and whose edges (those used an odd number of times) are, up to a factor exp(1/scale) per edge from rounding the weights, at least as likely as those of any other errors that flip exactly these detectors; the likelihood of a set of edges is the total probability of all combinations of errors that use exactly these edges. The returned weight is, up to 1/scale per edge, the logarithm of how much less likely the edges are than no edges at all. If no errors explain the events, decode raises.", "quantifier": "for every detector error model with probabilities below 1 (also above 1/2, and with any number of parallel errors), every earlier use of the decoder, and every set of detection events (graphs in which any two connected detectors are joined by a path whose rounded weight is below 2^31, e.g. by at most 64 edges: see C61)", "why_tests_cant": "The claim compares with all combinations of errors, and with the probabilities of the model; a test can only sample models and events.", "anchors": ["src/pymatching/sparse_blossom/driver/user_graph.cc: detector_error_model_to_user_graph, handle_dem_instruction, merge_weights, to_mwpm", "src/pymatching/sparse_blossom/driver/mwpm_decoding.cc: decode_detection_events", "src/pymatching/sparse_blossom/driver/user_graph.h: iter_detector_error_model_edges"]}
{"id": "C57", "title": "The command line tools give what decode gives", "statement": "pymatching predict writes, for every shot in order, the predictions that Matching.decode gives for this shot on a new object loaded from the same detector error model (with the same setting for correlations), and fails at the first shot for which decode raises. pymatching count_mistakes prints the number of shots whose prediction differs from the recorded observables and the number of shots, or fails if decode raises for one of the shots or the recorded observables end early. With correlations, models that the loader does not accept make both tools fail before any output.", "quantifier": "for every detector error model, every list of shots, with and without correlations; count_mistakes for at most 64 observables (graphs in which any two connected detectors are joined by a path whose rounded weight is below 2^31, e.g. by at most 64 edges: see C61)", "why_tests_cant": "One decoder and one buffer are reused for all shots of a run of any length; count_mistakes uses a different decoding routine (64-bit masks) from predict and decode, so the claim relates two routines on all inputs.", "anchors": ["src/pymatching/sparse_blossom/driver/namespaced_main.cc: main_predict, main_count_mistakes, main", "src/pymatching/sparse_blossom/driver/mwpm_decoding.cc: detector_error_model_to_mwpm, decode_detection_events, decode_detection_events_for_up_to_64_observables"]}
{"id": "C58", "title": "Every answer of an object, at any time, is a best explanation in the graph of that moment", "statement": "Whatever was done with a Matching object before (edges added or merged, boundary nodes set, fault ids ensured, questions of all kinds asked, exceptions raised): decode, decode_batch and decode_to_edges_array without correlations return the predictions, the weight and the edges of a set of edges of the current graph that explains the detection events with least (scaled and rounded) weight, and raise only if no set of edges explains them (or decode_batch got a wrong shape). For objects loaded from a detector error model with correlations, the answers with correlations are best for the weights of the second pass. pymatching predict writes, shot by shot, the observables flipped by such explanations.", "quantifier": "for every history of modifications and questions, every detector error model, every list of questions or shots; graphs in which no two edges from one detector to the boundary, and no edge inside the boundary, have negative weight together (see C49) (graphs in which any two connected detectors are joined by a path whose rounded weight is below 2^31, e.g. by at most 64 edges: see C61)", "why_tests_cant": "A history of any length on one object with its cached decoder, compared with all sets of edges of the graph; tests can only sample both.", "anchors": ["src/pymatching/sparse_blossom/driver/user_graph.cc: get_mwpm, get_mwpm_with_search_graph, to_mwpm, add_or_merge_edge, add_or_merge_boundary_edge, set_boundary", "src/pymatching/sparse_blossom/driver/user_graph.pybind.cc: decode, decode_batch, decode_to_edges_array", "src/pymatching/sparse_blossom/driver/mwpm_decoding.cc: decode_detection_events, decode_detection_events_to_edges", "src/pymatching/sparse_blossom/driver/namespaced_main.cc: main_predict"]}
{"id": "C59", "title": "Matched detection events are joined pair by pair by best explanations", "statement": "Whatever was done with a Matching object before: the pairs that decode_to_matched_dets_array returns contain every detection event that is not a boundary node exactly once (at most one of a pair is the boundary, never the first). Each pair is joined by a set of edges of the current graph that explains exactly the two events of the pair (or the one event, if its partner is the boundary) with least weight, and the weights of the pairs add up to the least weight of an explanation of all events. The call raises only if some weight is negative or nothing explains the events.", "quantifier": "for every history of modifications and questions on one object and every set of detection events, under the conditions of C58 (graphs in which any two connected detectors are joined by a path whose rounded weight is below 2^31, e.g. by at most 64 edges: see C61)", "why_tests_cant": "Compares every pair with all sets of edges, after a history of any length.", "anchors": ["src/pymatching/sparse_blossom/driver/user_graph.pybind.cc: decode_to_matched_detection_events_array", "src/pymatching/sparse_blossom/driver/mwpm_decoding.cc: decode_detection_events_to_match_edges", "src/pymatching/sparse_blossom/matcher/mwpm.cc: shatter_blossom_and_extract_match_edges"]}
{"id": "C60", "title": "Shortest path queries answer for the user's graph, at any time", "statement": "Whatever was done with the object before, get_nodes_on_shortest_path_from_source returns, in order from source to destination, the detectors of a path whose weight (scaled, rounded, in absolute value) is least among all paths through detectors in the current graph; towards the boundary (the virtual one or any boundary node) the path ends with the last detector before the boundary. If both ends are at the boundary it raises. The call has defined behaviour exactly if its ends are different detectors that the graph connects, or a detector connected to the boundary and the boundary, or both at the boundary.", "quantifier": "for every history of modifications and questions on one object, and all pairs of nodes; a query that involves the boundary on graphs that meet the condition of C49 on edges to the boundary (graphs in which any two connected detectors are joined by a path whose rounded weight is below 2^31, e.g. by at most 64 edges: see C61)", "why_tests_cant": "Compares with all paths of all graphs, after a history of any length; undefined behaviour does not show in tests reliably.", "anchors": ["src/pymatching/sparse_blossom/driver/user_graph.cc: get_nodes_on_shortest_path_from_source, get_mwpm_with_search_graph, to_mwpm", "src/pymatching/sparse_blossom/search/search_flooder.h: iter_edges_on_shortest_path_from_source"]}
{"id": "C61", "title": "The decoder as compiled, with its 32-bit field, decodes like the algorithm", "statement": "Every call on a matching object (decode, decode_batch, decode_to_edges_array, decode_to_matched_dets_array, shortest path queries, with and without correlations) ends, and returns what it would return if no internal quantity were cut off to 32 bits.", "quantifier": "for every graph, every history of modifications and questions on one object, and every set of detection events", "why_tests_cant": "The field overflows only after a region has crossed more than 64 edges of the largest weight; then the call does not return. The graphs of unit tests are smaller, and a test cannot show that a call never returns, nor that all graphs below a limit are safe.", "anchors": ["src/pymatching/sparse_blossom/flooder/detector_node.h: wrapped_radius_cached", "src/pymatching/sparse_blossom/flooder/detector_node.cc: compute_wrapped_radius", "src/pymatching/sparse_blossom/flooder/graph_flooder.cc: do_look_at_node_event, find_next_event_at_node_returning_neighbor_index_and_time", "src/pymatching/sparse_blossom/driver/user_graph.h: NUM_DISTINCT_WEIGHTS"]}
{"id": "C62", "title": "Decoding with a check matrix finds a lightest solution of the syndrome equation", "statement": "Build an object from a check matrix H (columns with at most two ones), a faults matrix F and weights, with the default merge strategy. For one repetition: decode(z) returns F c modulo 2 for a set c of columns with H c = z modulo 2 whose (scaled and rounded) weight is least among all solutions (c itself if F is the identity), the weight of c, and raises only if there is no solution. For T repetitions: decode(z) of a syndrome difference array returns F applied to the errors of a history (errors per repetition, wrong measurements in all but the last) whose measured syndromes change exactly where z says, of least weight among all such histories. The same for decode_batch, for both kinds of boundary, and at any time while the object keeps this graph. With integer weights nothing is rounded; otherwise the weight found exceeds the least by at most one rounding step per element.", "quantifier": "for every check matrix, faults matrix, number of repetitions, weights of absolute value at most 2^24-1 (larger ones may round: C19), and syndrome; parallel columns must not have a negative sum of weights, and zero columns no negative weight (nonnegative weights suffice) (graphs in which any two connected detectors are joined by a path whose rounded weight is below 2^31, e.g. by at most 64 edges: see C61)", "why_tests_cant": "Compares one answer with all solutions of a linear system, for all systems; unit tests check a few codes, and cannot enumerate the solutions.", "anchors": ["src/pymatching/matching.py: load_from_check_matrix, from_check_matrix, decode, _syndrome_array_to_detection_events", "src/pymatching/sparse_blossom/driver/user_graph.pybind.cc: sparse_column_check_matrix_to_matching_graph, decode, decode_batch", "src/pymatching/sparse_blossom/driver/user_graph.cc: add_or_merge_edge, add_or_merge_boundary_edge, to_mwpm"]}
{"id": "C63", "title": "Decoding a sampled syndrome succeeds, with a correction no heavier than the sampled errors", "statement": "Let add_noise sample errors on a matching graph whose edges all have error probabilities, and decode the returned syndrome. decode accepts the array and does not raise; the weight it returns is at most the (scaled and rounded) weight of the sampled edges; and the returned noise vector and the prediction differ exactly in the fault ids of a set of edges that flips no detector.", "quantifier": "for every history of graph operations, and every outcome of the random source (all fault ids below num_fault_ids, see C18; boundary weights as in C49) (graphs in which any two connected detectors are joined by a path whose rounded weight is below 2^31, e.g. by at most 64 edges: see C61)", "why_tests_cant": "Statistical tests sample few outcomes; that no outcome can lead to an exception or to a correction heavier than the errors is a statement about all of them.", "anchors": ["src/pymatching/sparse_blossom/driver/user_graph.cc: add_noise, get_mwpm, to_mwpm", "src/pymatching/matching.py: add_noise, decode, _syndrome_array_to_detection_events", "src/pymatching/sparse_blossom/driver/user_graph.pybind.cc: add_noise, decode"]}
{"id": "C64", "title": "Every error of weight below half the code distance is corrected", "statement": "If every undetected set of edges that flips some fault id has weight at least d, then for every set of edges of weight less than d/2, decode of its detection events returns exactly the fault ids that the set flips. For a check matrix with repetitions: every history of errors and wrong measurements of cost less than d/2 is corrected, if every undetected history that flips a fault id costs at least d. With unit weights and one repetition: decode(H e) = F e for every e with fewer than d/2 ones, if every c with H c = 0 and F c != 0 has at least d ones.", "quantifier": "for every graph or check matrix with nonnegative weights, every d, and every set of errors below d/2 (weights scaled and rounded; exact for integer weights) (graphs in which any two connected detectors are joined by a path whose rounded weight is below 2^31, e.g. by at most 64 edges: see C61)", "why_tests_cant": "The number of error sets grows exponentially with the distance; unit tests can check them all only for tiny codes.", "anchors": ["src/pymatching/sparse_blossom/driver/mwpm_decoding.cc: decode_detection_events", "src/pymatching/sparse_blossom/driver/user_graph.pybind.cc: decode, sparse_column_check_matrix_to_matching_graph", "src/pymatching/matching.py: decode, load_from_check_matrix"]}
{"id": "C65", "title": "Double precision costs at most about half a step per edge", "statement": "Weights are doubles, and are multiplied, rounded and scaled back in double precision. If no weight exceeds 2^24-1 and the largest is at least 2^-998 (or all are integers), no cast and no doubling overflows, order and sign of the weights are kept, and decode, decode_batch and decode_to_edges_array return an explanation of the detection events which no other explanation beats by more than (1/2 + 2^-27) steps per edge of the two, a step being the largest absolute weight divided by 2^24-1; the returned weight is within (1/2 + 2^-25) steps per edge of the true weight of that explanation. If all weights are integers (and there are less than 2^29 edges), the explanation is of least weight and the returned weight is exact. If there are weights other than zero and none exceeds 2^-1001, converting them is undefined behaviour; if none exceeds 2^-1000, a returned weight is 0.", "quantifier": "for every graph with less than 2^38 edges in which no two boundary edges of one detector gain from being taken together, every question about any detection events, without correlations; the doubles are rounded to nearest even (graphs in which any two connected detectors are joined by a path whose rounded weight is below 2^31, e.g. by at most 64 edges: see C61)", "why_tests_cant": "Errors of floating point arithmetic depend on the weights; tests use few, mostly round, weights and compare up to a tolerance that is not derived from anything.", "anchors": ["src/pymatching/sparse_blossom/driver/user_graph.cc: get_edge_weight_normalising_constant, to_mwpm", "src/pymatching/sparse_blossom/driver/user_graph.h: iter_discretized_edges, to_matching_or_search_graph_helper", "src/pymatching/sparse_blossom/driver/user_graph.pybind.cc: decode, decode_batch"]}
{"id": "C66", "title": "Matching(H, ...) and decode mean what the Python arguments say", "statement": "The arguments of Matching(H, ...) and load_from_check_matrix (defaults, numbers that stand for all columns, arrays, old names of parameters, dense or sparse matrices, one or several repetitions) are turned into the decoding problem that they stand for; arguments that do not stand for one (no matrix, two names of the same parameter, negative repetitions, an unknown merge strategy, wrong types) raise an exception; memory outside of the arrays is never read. decode(z) then returns an array for which there is a history of errors that explains z and that no other history beats by more than the rounding of the weights, with return_weight=True together with its weight up to the same rounding; arrays of a wrong shape raise. In particular, with default arguments decode(z) is a solution x of Hx = z with the fewest ones, exactly, whenever there is a solution, and an exception is raised if there is none.", "quantifier": "for every matrix of zeros and ones with at most two ones in each column and every combination of the arguments (weights of absolute value at most 2^24-1, no two equal columns whose weights have a negative sum, no zero column of negative weight, fewer than 2^29 columns, merge strategy smallest-weight, faults matrices without explicitly stored zeros), every syndrome, in double precision (graphs in which any two connected detectors are joined by a path whose rounded weight is below 2^31, e.g. by at most 64 edges: see C61)", "why_tests_cant": "The front-end has many combinations of optional arguments, of which tests use few; optimality of what comes out can only be compared with other solutions for small matrices.", "anchors": ["src/pymatching/matching.py: __init__, load_from_check_matrix, decode", "src/pymatching/sparse_blossom/driver/user_graph.pybind.cc: sparse_column_check_matrix_to_matching_graph, decode"]}
{"id": "C67", "title": "A matrix with an entry other than 0 and 1 is refused", "statement": "Matching(H) and load_from_check_matrix raise an exception if the check matrix or the faults matrix has an entry other than 0 and 1.", "quantifier": "for every integer matrix", "why_tests_cant": "There are infinitely many other values; tests try 2 or -1.", "anchors": ["src/pymatching/matching.py: load_from_check_matrix", "src/pymatching/sparse_blossom/driver/user_graph.pybind.cc: CompressedSparseColumnCheckMatrix"]}
{"id": "C68", "title": "One object, in double precision, at any time", "statement": "Use one object for any sequence of modifications (edges, boundary nodes, number of fault ids) and questions (decode, decode_batch, edges and paths, with and without correlations), with weights that are doubles. Every question ends without undefined behaviour, and its answer is the one a new object with the graph of that moment would give: neither the cached decoder nor its normalising constant is stale. Without correlations, the answer is an explanation of the detection events that no other beats by more than about half a rounding step per edge, and the returned weight is that of the explanation to the same precision.", "quantifier": "for every sequence of operations whose questions are well formed at the moment they are asked (weights of absolute value at most 2^24-1 of which the largest is at least 2^-998, or integers; fault ids below num_fault_ids; correlations only without negative weights) (graphs in which any two connected detectors are joined by a path whose rounded weight is below 2^31, e.g. by at most 64 edges: see C61)", "why_tests_cant": "A stale cache shows only for particular orders of modifications and questions; there are infinitely many orders, and rounding errors depend on the weights.", "anchors": ["src/pymatching/sparse_blossom/driver/user_graph.cc: get_mwpm, get_mwpm_with_search_graph, add_or_merge_edge, set_boundary", "src/pymatching/sparse_blossom/driver/user_graph.pybind.cc: decode, decode_batch, decode_to_edges_array", "src/pymatching/sparse_blossom/driver/mwpm_decoding.cc: decode_detection_events"]}
{"id": "C69", "title": "Programs in Python", "statement": "Run a program that starts with Matching() and goes on with any sequence of add_edge, add_boundary_edge, set_boundary_nodes, ensure_num_fault_ids, decode, decode_batch, decode_to_edges_array, decode_to_matched_dets_array, decode_to_matched_dets_dict (see C72) and methods that look at the object (see C71). It ends without undefined behaviour. At any moment the object stands for the network of links that the statements so far describe: fault_ids may be absent, -1, an integer or a set, add_edge also takes qubit_id; a link between two nodes that already have one is merged by the given strategy or raises; links that are too heavy are left out with a warning; wrong arguments raise and change nothing. Each decode answers about the network of its moment: it gives the parities of the fault ids of a set of links that explains the syndrome and that no other such set beats by more than about half a rounding step per link (by nothing if all weights are integers), together with its weight; it raises only if the array has the wrong shape or there is no explanation.", "quantifier": "for every program whose decode statements are about networks with fault ids below num_fault_ids, weights of absolute value at most 2^24-1 of which the largest is at least 2^-998 (or integers), where no two links from one node to the boundary have negative total weight and no link inside the boundary has negative weight; no NaN; ensure_num_fault_ids does not raise the number of fault ids between a decode and the next change of links or boundary (graphs in which any two connected detectors are joined by a path whose rounded weight is below 2^31, e.g. by at most 64 edges: see C61)", "why_tests_cant": "Programs are unbounded sequences of statements; a fault in the bookkeeping between the Python layer, the graph and the cached decoder shows only for particular orders.", "anchors": ["src/pymatching/matching.py: add_edge, add_boundary_edge, set_boundary_nodes, ensure_num_fault_ids, decode, decode_batch, decode_to_edges_array", "src/pymatching/sparse_blossom/driver/user_graph.pybind.cc: add_edge, add_boundary_edge, set_boundary, set_min_num_observables, decode, decode_batch, decode_to_edges_array", "src/pymatching/sparse_blossom/driver/user_graph.cc: add_or_merge_edge, add_or_merge_boundary_edge, set_boundary, get_mwpm"]}
{"id": "C70", "title": "A detector error model decoded in double precision: most likely errors, with a bound for all rounding", "statement": "Load a detector error model whose errors each have one or two detectors, then call decode any number of times, with everything computed in double precision. Every call ends without undefined behaviour. A returned prediction stands for a set of errors of the model that flip exactly the given detectors, such that no other set is more likely by more than a stated factor: about half a step of the conversion to integers per edge used, plus (2n-1)*e for an edge that n errors share, where e is the precision of the two weight formulas. The returned weight is the logarithm of the likelihood ratio to no errors at all, up to the same terms. An exception means that no errors of the model explain the detection events. The precision e is at most 2^-40 + 711*h if std::exp and std::log are accurate to h.", "quantifier": "for all models whose non-zero probabilities lie between 2^-1022 and 1-2^-53, with less than 2^38 components; for all functions exp and log that are accurate to h at all doubles; for all sequences of shots (graphs in which any two connected detectors are joined by a path whose rounded weight is below 2^31, e.g. by at most 64 edges: see C61)", "why_tests_cant": "A rounding error in one of the weights shows as a wrong decision only for two explanations of nearly equal likelihood, and nobody can enumerate these; how errors grow when many parallel errors are merged needs an argument about all weights.", "anchors": ["src/pymatching/sparse_blossom/driver/user_graph.cc: handle_dem_instruction, merge_weights, to_weight_for_correlations, detector_error_model_to_user_graph, get_mwpm", "src/pymatching/sparse_blossom/driver/user_graph.pybind.cc: decode"]}
{"id": "C71", "title": "Looking at the object shows what was built, and changes nothing", "statement": "At any moment of a program, edges(), has_edge, has_boundary_edge, get_edge_data, get_boundary_edge_data, boundary, num_nodes, num_edges, num_detectors, num_fault_ids and repr report what the statements so far have built: the links in the order in which they were first added, each with its fault ids, weight and error probability (merged by the chosen strategy where a link was added again), at most one link per pair of nodes, the boundary nodes, and the numbers. get_edge_data raises exactly if there is no such link. edges() shows -1 for a probability outside of [0, 1]. Leaving out all statements that look changes no other reply and not the object.", "quantifier": "for all programs that build and look, without bound on their length, if no weight is NaN; that looking changes nothing: for all programs and all objects", "why_tests_cant": "The bookkeeping of nodes, neighbours, merged links and fault ids depends on the whole history of calls; that a getter has no side effect is a statement about all histories.", "anchors": ["src/pymatching/matching.py: edges, has_edge, has_boundary_edge, get_edge_data, get_boundary_edge_data, boundary, num_nodes, num_edges, num_detectors, num_fault_ids, __repr__", "src/pymatching/sparse_blossom/driver/user_graph.pybind.cc: get_edges, has_edge, has_boundary_edge, get_edge_data, get_boundary_edge_data", "src/pymatching/sparse_blossom/driver/user_graph.cc: has_edge, has_boundary_edge, get_num_nodes, get_num_edges, get_num_detectors, get_num_observables"]}
{"id": "C72", "title": "Matched pairs in double precision, at any moment of a program", "statement": "decode_to_matched_dets_array, called at any moment of a program, returns pairs that contain every detection event exactly once, apart from those at boundary nodes; -1 stands for the boundary. For each pair there is a set of links that explains just this pair and that no other set beats by more than about half a rounding step per link; the sum of their weights is the weight of such a cheap explanation of all events, up to the same terms (exactly, if all weights are integers). It raises only if the array has the wrong shape, a weight is negative, or nothing explains the events. decode_to_matched_dets_dict returns the same pairs as a dictionary, in both directions.", "quantifier": "for every program and network as in C69; that the dictionary says the same: for all objects and arrays (graphs in which any two connected detectors are joined by a path whose rounded weight is below 2^31, e.g. by at most 64 edges: see C61)", "why_tests_cant": "Minimality of a pairing is a statement about all pairings and all paths; the rounding of the weights shows only for nearly equal alternatives.", "anchors": ["src/pymatching/matching.py: decode_to_matched_dets_array, decode_to_matched_dets_dict", "src/pymatching/sparse_blossom/driver/user_graph.pybind.cc: decode_to_matched_detection_events_array, decode_to_matched_detection_events_dict", "src/pymatching/sparse_blossom/driver/mwpm_decoding.cc: decode_detection_events_to_match_edges"]}
{"id": "C73", "title": "A check matrix, then any program", "statement": "Matching(H, ...) (or load_from_check_matrix) with any merge strategy gives the same object as adding, by hand, the link of each column in each repetition and then the links between the repetitions, with that strategy: the same nodes, links, fault ids, weights, boundary. With 'disallow' it raises exactly if two of these links have the same ends. Whatever proper program follows (adding links, changing the boundary, decoding one syndrome or many, looking at the object) gets right replies, in the sense of C69, C71, C72.", "quantifier": "for every check matrix with at most two ones per column, every faults matrix, weights, probabilities, repetitions, every merge strategy, and every proper program (C69) that follows (graphs in which any two connected detectors are joined by a path whose rounded weight is below 2^31, e.g. by at most 64 edges: see C61)", "why_tests_cant": "Parallel columns are merged one after the other and the result depends on the strategy and on the order; what follows may modify the graph and decode in any order.", "anchors": ["src/pymatching/matching.py: __init__, load_from_check_matrix", "src/pymatching/sparse_blossom/driver/user_graph.pybind.cc: sparse_column_check_matrix_to_matching_graph", "src/pymatching/sparse_blossom/driver/user_graph.cc: add_or_merge_edge, add_or_merge_boundary_edge, merge_edge_or_boundary_edge, set_boundary", "src/pymatching/sparse_blossom/driver/user_graph.pybind.cc: merge_strategy_from_string"]}
{"id": "C74", "title": "A check matrix, then any number of questions", "statement": "After Matching(H, ...) with the default merge strategy, any sequence of decode, decode_batch (shots and predictions in bytes or in bits), decode_to_edges_array, decode_to_matched_dets_array, decode_to_matched_dets_dict and of looks at the object can be executed, and none of them influences the later ones: every syndrome decoded, and every shot of every batch, gives the fault ids of a history of errors (columns that fail in a repetition, measurements that are wrong) that causes it, and no other history that causes it is lighter by more than about half a rounding step per error; the weight returned is that of the history, up to the same terms; decode_to_edges_array lists the places of the errors of such a history. An exception is raised exactly if nothing causes the syndrome (of one of the shots) or if the shape is wrong; by the methods for matched pairs only then, or if a weight is negative.", "quantifier": "for every check matrix and arguments as in C66, and every finite sequence of these statements (graphs in which any two connected detectors are joined by a path whose rounded weight is below 2^31, e.g. by at most 64 edges: see C61)", "why_tests_cant": "Unit tests ask a few questions on one object; that state left over from earlier shots never changes later answers is a statement about all sequences.", "anchors": ["src/pymatching/matching.py: __init__, load_from_check_matrix, decode, decode_batch, decode_to_edges_array, decode_to_matched_dets_array, decode_to_matched_dets_dict", "src/pymatching/sparse_blossom/driver/user_graph.pybind.cc: decode, decode_batch, sparse_column_check_matrix_to_matching_graph", "src/pymatching/sparse_blossom/driver/mwpm_decoding.cc: decode_detection_events"]}
{"id": "C75", "title": "A detector error model, then any program", "statement": "Matching.from_detector_error_model(model) gives the same object as adding by hand, one after the other and with the strategy for independent errors, a link for each component of each error that can happen, with the weight and the probability of the error: the same nodes, links, fault ids, weights, probabilities, an empty boundary. This never raises. Whatever proper program follows (adding links, changing the boundary, decoding one syndrome or many, looking at the object) gets right replies, in the sense of C69, C71, C72.", "quantifier": "for every detector error model with probabilities in [0, 1) in which no component lists an observable twice, every weight function, and every proper program (C69) that follows (graphs in which any two connected detectors are joined by a path whose rounded weight is below 2^31, e.g. by at most 64 edges: see C61)", "why_tests_cant": "Errors with the same detectors are merged one after the other, and the loaded object is of a kind (built without correlations) that the other entry points do not produce; what follows may modify it and decode in any order.", "anchors": ["src/pymatching/matching.py: from_detector_error_model, load_from_detector_error_model", "src/pymatching/sparse_blossom/driver/user_graph.h: iter_dem_instructions_include_correlations, iter_detector_error_model_edges", "src/pymatching/sparse_blossom/driver/user_graph.cc: detector_error_model_to_user_graph, handle_dem_instruction, add_or_merge_edge, add_or_merge_boundary_edge"]}
{"id": "C76", "title": "A detector error model, then any number of questions", "statement": "After Matching.from_detector_error_model(model), any sequence of decode, decode_batch (shots and predictions in bytes or in bits), decode_to_edges_array, decode_to_matched_dets_array, decode_to_matched_dets_dict and of looks at the object can be executed, and none of them influences the later ones: every syndrome decoded, and every shot of every batch, gives the observables flipped by errors of the model that cause it, and no other errors that cause it are more likely by more than the factor of C70; the weight returned is the sum of their log-likelihood ratios up to the terms of C70; decode_to_edges_array lists the pairs of detectors with an odd number of such errors; the matched pairs contain every event once, each pair alone is caused by errors that are most likely for it, and the weights of these errors add up to that of most likely errors that cause all the events, up to the same terms. An exception is raised exactly if no errors of the model cause the syndrome (of one of the shots) or if the shape is wrong; by the methods for matched pairs only then, or if a weight is negative.", "quantifier": "for every detector error model as in C70, and every finite sequence of these statements (graphs in which any two connected detectors are joined by a path whose rounded weight is below 2^31, e.g. by at most 64 edges: see C61)", "why_tests_cant": "Unit tests sample a few shots of a few models; that state left over from earlier shots never changes later answers, and that answers are most likely, are statements about all models and sequences.", "anchors": ["src/pymatching/matching.py: from_detector_error_model, decode, decode_batch, decode_to_edges_array, decode_to_matched_dets_array, decode_to_matched_dets_dict", "src/pymatching/sparse_blossom/driver/user_graph.pybind.cc: decode, decode_batch, detector_error_model_to_matching_graph", "src/pymatching/sparse_blossom/driver/mwpm_decoding.cc: decode_detection_events"]}
{"id": "C77", "title": "A networkx or rustworkx graph, then any program", "statement": "Matching(graph) (load_from_networkx, load_from_rustworkx) gives the object that results from adding the edges of the graph one after the other with the strategy 'smallest-weight': edges without weight have weight 1, fault_ids may be an integer (-1: none), a set, or absent, and may be called qubit_id; the boundary nodes are those with is_boundary. Without parallel edges the object has exactly the edges of the graph, in their order, and the least number of nodes and of fault ids that is needed and not less than the graph and min_num_fault_ids say. An edge that is too heavy is skipped with a warning; negative nodes or fault ids, both names at once, or values of another type raise. Whatever proper program follows gets right replies, in the sense of C69, C71, C72.", "quantifier": "for every graph with integer node labels and weights that are not NaN, every min_num_fault_ids, and every proper program (C69) that follows (graphs in which any two connected detectors are joined by a path whose rounded weight is below 2^31, e.g. by at most 64 edges: see C61)", "why_tests_cant": "Combinations of present and absent attributes, labels that are not consecutive, multigraphs and what follows are unbounded; tests load a few small graphs.", "anchors": ["src/pymatching/matching.py: __init__, load_from_networkx, load_from_rustworkx", "src/pymatching/sparse_blossom/driver/user_graph.pybind.cc: add_edge, set_boundary", "src/pymatching/sparse_blossom/driver/user_graph.cc: add_or_merge_edge, set_boundary"]}
{"id": "C78", "title": "Loading graphs in the middle of a program", "statement": "A program may load graphs at any point, into the same object or by assigning a new one, from a networkx or rustworkx graph, a check matrix or a detector error model (with or without correlations), in any order with questions, modifications and looks. A load that succeeds replaces the network completely: the replies from then on do not depend on what the object was, or was asked, before. A load that raises leaves the object as it was, with the same graph and the same answers. All replies are right, in the sense of C69, C71, C72, about the network of that moment.", "quantifier": "for every finite program of statements and loads that is proper (C69; the loads as in C73, C75, C77, C81) (graphs in which any two connected detectors are joined by a path whose rounded weight is below 2^31, e.g. by at most 64 edges: see C61)", "why_tests_cant": "Left-over state (a cached decoder of the old graph, a half-built new graph after an exception) would show only in particular orders of loads, questions and failures.", "anchors": ["src/pymatching/matching.py: __init__, load_from_networkx, load_from_rustworkx, load_from_check_matrix, from_detector_error_model", "src/pymatching/sparse_blossom/driver/user_graph.cc: get_mwpm, get_mwpm_with_search_graph", "src/pymatching/sparse_blossom/driver/user_graph.pybind.cc: sparse_column_check_matrix_to_matching_graph, detector_error_model_to_matching_graph"]}
{"id": "C79", "title": "Correlated decoding on any graph, at any time", "statement": "Decoding with enable_correlations=True (decode, decode_batch, decode_to_edges_array) gives an explanation of the events with least total weight for the weights of a second pass. These weights are: for every edge the least of its own weight and the absolute weights that the edges of some explanation of least weight (found in a first pass) imply for it. All boundary nodes are one end; an edge from a node to itself implies nothing. The weight that is returned is the total for the second pass. An object loaded without correlations raises. If there are no implied weights, the answer is a best explanation as without correlations. All this holds for each question of any history of questions and modifications, about the graph of that moment.", "quantifier": "for every graph without negative weights, however it was loaded or modified, whose decoder can be built, every history and every list of events (graphs in which any two connected detectors are joined by a path whose rounded weight is below 2^31, e.g. by at most 64 edges: see C61)", "why_tests_cant": "Which edges imply weights for which others, ties between explanations, several boundary edges at one detector, and edges replaced after loading are unbounded combinations.", "anchors": ["src/pymatching/sparse_blossom/driver/mwpm_decoding.cc: decode_detection_events, decode_detection_events_to_edges", "src/pymatching/sparse_blossom/flooder/graph.cc: reweight, reweight_for_edge, undo_reweights", "src/pymatching/sparse_blossom/driver/user_graph.cc: get_mwpm", "src/pymatching/matching.py: decode, decode_batch, decode_to_edges_array"]}
{"id": "C80", "title": "Correlated decoding in double precision", "statement": "As C79, for weights that are doubles and with the rounding that the library does: the first pass finds an explanation that no other beats by more than about half a step per edge; the second pass finds one for which this is true for the weights of the second pass (the least of own and implied weights, before any rounding); the weight that is returned is a double within about half a step per edge of the total of these weights. If all weights are integers, everything is exact.", "quantifier": "for every graph with usable weights that are not negative (C65), every history of questions and modifications, and every list of events, with less than 2^38 edges (graphs in which any two connected detectors are joined by a path whose rounded weight is below 2^31, e.g. by at most 64 edges: see C61)", "why_tests_cant": "The rounding errors of two passes could add up, or a rounded implied weight could be compared in the wrong order with a rounded weight; inputs are unbounded.", "anchors": ["src/pymatching/sparse_blossom/driver/mwpm_decoding.cc: decode_detection_events, decode_detection_events_to_edges", "src/pymatching/sparse_blossom/flooder/graph.cc: reweight, reweight_for_edge, undo_reweights", "src/pymatching/sparse_blossom/driver/user_graph.cc: get_edge_weight_normalising_constant, get_mwpm", "src/pymatching/sparse_blossom/driver/user_graph.h: iter_discretized_edges"]}
{"id": "C81", "title": "Programs with correlations", "statement": "Matching.from_detector_error_model(model, enable_correlations=True) raises if an error is more likely than one half, or can happen and has a component that is not graph-like. Otherwise the object has the links of C75, and for each link a rule for each other link that shares an error with it: the weight of the conditional probability, computed from the probabilities that an odd number of the shared errors, and of the errors of the link, happens, and at most one half. Any program may follow, which asks with or without enable_correlations=True, modifies the object, looks at it and loads other graphs: each reply is right about the network of that moment. With correlations this means: there is a best explanation for a first pass, and the reply is a best explanation for the weights that its links imply by their rules (the least of own and implied weights), up to about half a step per link. Replaced or merged links keep their rules, new ones have none. After loading a model without correlations every such question raises. A network as loaded can be asked about with correlations as soon as its weights are in range.", "quantifier": "for every detector error model in which no component lists an observable twice and no error has two components with the same detectors, and every proper program (C69; questions with correlations are about networks without negative weights whose rules are for links that still exist, not at boundary nodes) (graphs in which any two connected detectors are joined by a path whose rounded weight is below 2^31, e.g. by at most 64 edges: see C61)", "why_tests_cant": "Rules come from sums over all errors that share two links, and are used by a decoder that may be rebuilt after modifications; programs and models are unbounded.", "anchors": ["src/pymatching/matching.py: from_detector_error_model, decode, decode_batch, decode_to_edges_array", "src/pymatching/sparse_blossom/driver/user_graph.cc: detector_error_model_to_user_graph, populate_implied_edge_weights, get_mwpm", "src/pymatching/sparse_blossom/driver/user_graph.h: iter_dem_instructions_include_correlations", "src/pymatching/sparse_blossom/flooder/graph.cc: reweight, undo_reweights"]}
{"id": "C82", "title": "Detector error models with correlations, in double precision", "statement": "After Matching.from_detector_error_model(model, enable_correlations=True), with all arithmetic in double precision and exp and log accurate to eta: every weight of the object is at most 1000, and within 2k(2^-40 + 711 eta) of its exact value, where k is the number of errors of the link: for the link the log-likelihood ratio of the probability that an odd number of its errors happens, for a rule that of the conditional probability of the other link as the library estimates it (the probability that an odd number of the errors of both links happens, divided by that for the first link, at most one half). There is exactly one rule for each other link that shares an error with it; rounding neither loses nor invents rules. Replies to decode, decode_batch and decode_to_edges_array with or without correlations are described by these exact weights: with correlations there is a first explanation that is best up to D per link for the exact weights of the links, and the reply is best up to D per link for the least of these and of the exact weights of conditional probabilities given the first explanation; the returned weight is the exact weight of the reply up to D per link. Here D = 2^-15 + 2n(2^-40 + 711 eta), if the model has n errors.", "quantifier": "for every detector error model in which probabilities are zero or at least 2^-1000, no error has two components with the same detectors, no component lists an observable twice, and n(2^-40 + 711 eta) is at most 100 (about 10^14 errors); every proper program (C81), with fewer than 2^29 links (graphs in which any two connected detectors are joined by a path whose rounded weight is below 2^31, e.g. by at most 64 edges: see C61)", "why_tests_cant": "Rounding errors of joint probabilities, their quotients and logarithms add up over any number of errors, and a small error may change which explanation is found.", "anchors": ["src/pymatching/sparse_blossom/driver/user_graph.cc: bernoulli_xor, to_weight_for_correlations, merge_weights, add_decomposed_error_to_joint_probabilities, populate_implied_edge_weights", "src/pymatching/matching.py: from_detector_error_model, decode, decode_batch, decode_to_edges_array"]}
{"id": "C83", "title": "The command line tools in double precision", "statement": "With the arithmetic of the code (double precision): pymatching predict writes, for every shot in order, the row that m.decode(syndrome, return_weight=True, enable_correlations=...) returns on a new object for the same model, asked about that shot alone, and stops with failure at the first shot for which decode raises. pymatching count_mistakes prints the number of shots for which that row is not what was recorded, and the number of shots; or fails, and then decode raises for one of the shots or the recorded observables end early. If predict writes a record for every shot, count_mistakes prints the number of records that are not what was recorded. Without correlations the predictions are the observables flipped by errors that are most likely among those that explain the shot, up to the rounding described in C76; decode raises only if no errors explain it. With correlations they are the observables of a set of links that is best up to D per link for the exact weights of C82; failure means that the shot has no explanation. A model that the loader refuses makes both tools fail without output.", "quantifier": "for every detector error model (as in C76 without and in C82 with correlations), every list of shots given by increasing detector numbers; count_mistakes for at most 64 observables (graphs in which any two connected detectors are joined by a path whose rounded weight is below 2^31, e.g. by at most 64 edges: see C61)", "why_tests_cant": "One decoder and one buffer serve all shots of a run of any length, count_mistakes uses another decoding routine, and the weights behind both are rounded; tests sample a few files.", "anchors": ["src/pymatching/sparse_blossom/driver/namespaced_main.cc: main_predict, main_count_mistakes, main", "src/pymatching/sparse_blossom/driver/mwpm_decoding.cc: detector_error_model_to_mwpm, decode_detection_events, decode_detection_events_for_up_to_64_observables", "src/pymatching/sparse_blossom/driver/user_graph.cc: to_mwpm, to_weight_for_correlations, merge_weights"]}
{"id": "C84", "title": "Correlated decoding returns what is most likely", "statement": "After Matching.from_detector_error_model(model, enable_correlations=True), with all arithmetic in double precision and exp and log accurate to eta. Call the likelihood of a set of links, for given probabilities of the links, the product of these for the links in the set and of one minus these for the others. Replies to decode, decode_batch and decode_to_edges_array without correlations tell of a set of links that explains the detection events and such that no other explanation is more likely by more than a factor exp(D) for each link of the two, for the probabilities that an odd number of the errors of a link happens. With correlations there is such an explanation, found first; and the reply tells of an explanation that is as likely in the same sense for the probabilities that are, for each link, the greatest of its own and of those given a link of the first explanation (the probability that an odd number of the errors of both happens, divided by that of the given link, at most one half). The returned weight is, up to D per link, the logarithm of how much less likely the reply is than that nothing happened. Nothing explains the events if a call with an array of the right shape raises. The same holds for what pymatching predict writes and pymatching count_mistakes compares, with --enable_correlations. Here D = 2^-15 + 2n(2^-40 + 711 eta), if the model has n errors.", "quantifier": "for every detector error model as in C82, every proper program (C81) with fewer than 2^29 links, every list of shots of increasing detector numbers (graphs in which any two connected detectors are joined by a path whose rounded weight is below 2^31, e.g. by at most 64 edges: see C61)", "why_tests_cant": "Compares the reply with all other sets of links, of which there are exponentially many, after two passes with rounded weights.", "anchors": ["src/pymatching/sparse_blossom/driver/user_graph.cc: populate_implied_edge_weights, to_weight_for_correlations, merge_weights", "src/pymatching/sparse_blossom/driver/mwpm_decoding.cc: decode_detection_events", "src/pymatching/sparse_blossom/driver/namespaced_main.cc: main_predict, main_count_mistakes", "src/pymatching/matching.py: from_detector_error_model, decode, decode_batch, decode_to_edges_array"]}
{"id": "C85", "title": "Simulation: sample noise, decode, compare", "statement": "A Python program on one Matching object may sample noise with m.add_noise(), decode what was sampled with m.decode(syndrome, return_weight=True) or, for several samples, with m.decode_batch, with or without correlations, at any point among other statements. With the arithmetic of the code (double precision) and whatever the random numbers are: add_noise returns None exactly if some edge is or at an earlier moment was without a probability between 0 and 1; so a program that gives each edge a probability, or that starts from a detector error model, always gets samples. Otherwise the noise tells for each fault id, and the syndrome for each node that is not a boundary node, whether an odd number of the flipped edges (those whose random number is below their probability) has it; boundary nodes get 0. Decoding a sample does not raise (unless correlations are asked of an object loaded without them). The prediction tells the fault ids of edges that explain the syndrome and whose total weight exceeds that of the flipped edges at most by rounding, and not at all if all weights are integers. Noise and prediction differ in the fault ids of edges that flip no detector. If no weight is negative and the flipped edges weigh less than half of what changing a fault id unnoticed costs, up to rounding, the prediction equals the noise. In a loop, the number of wrong predictions is the number of harmful differences.", "quantifier": "for every program of such lines that is proper as in C69 (edges that are asked about or sampled from have fault ids below num_fault_ids), on a new object or one made from a detector error model with or without correlations, every sequence of random numbers (graphs in which any two connected detectors are joined by a path whose rounded weight is below 2^31, e.g. by at most 64 edges: see C61)", "why_tests_cant": "Samples are random, and what must hold for each of them is a statement about all sets of edges; tests compare averages.", "anchors": ["src/pymatching/sparse_blossom/driver/user_graph.cc: add_noise, all_edges_have_error_probabilities, add_or_merge_edge, merge_edge_or_boundary_edge", "src/pymatching/sparse_blossom/driver/user_graph.pybind.cc: pm_pybind::pybind_user_graph_methods", "src/pymatching/matching.py: add_noise, decode, decode_batch"]}
{"id": "C86", "title": "Decoding when edges to the boundary are worth combining", "statement": "m.decode, m.decode_batch and m.decode_to_edges_array without correlations, on an object with any weights, also if two edges from one detector to the boundary have a negative sum or an edge between boundary nodes is negative (C49, C58 and C69 exclude these): the answer is that of a set of edges that explains the detection events, has no edge between boundary nodes and at most one edge from each detector to the boundary, and among the sets of this kind none is cheaper, up to the rounding of weights (and none at all if all weights are integers). The call raises only if no set of edges of any kind explains the events. If no two edges from a detector to the boundary have a negative sum and no edge inside the boundary is negative, the answer is cheapest among all sets, as in C69.", "quantifier": "for every program as in C69, where the weights of edges to the boundary and between boundary nodes are arbitrary numbers up to 2^24-1 in absolute value for questions without correlations, and every array of events (graphs in which any two connected detectors are joined by a path whose rounded weight is below 2^31, e.g. by at most 64 edges: see C61)", "why_tests_cant": "Universal over graphs and exponentially many alternative sets of edges; the rules that decide which edges are dropped are spread over the conversion of the graph.", "anchors": ["src/pymatching/sparse_blossom/driver/user_graph.h: to_matching_or_search_graph_helper", "src/pymatching/sparse_blossom/driver/user_graph.cc: to_mwpm, get_num_observables", "src/pymatching/sparse_blossom/driver/mwpm_decoding.cc: decode_detection_events, decode_detection_events_to_edges", "src/pymatching/matching.py: decode, decode_batch, decode_to_edges_array"]}
{"id": "C87", "title": "Several objects and one random generator", "statement": "In a program with several Matching objects (empty, from a check matrix, from a detector error model with or without correlations), each call on an object gives what it should for that object alone, as in C85, whatever happens to the other objects in between. m.add_noise() takes one random number from the global generator per edge, in the order in which the edges were added, if all edges always had a probability, and none otherwise; decoding, changing or reading an object takes none. set_seed(n) raises exactly if n does not fit into 32 unsigned bits; after it all later results are determined. Equal graphs at equal positions of the generator get equal samples. Statements on other objects that do not sample can be left out of a program without any effect on the results for an object or on the random numbers.", "quantifier": "for every generator (a state, a seeding function and a function that draws from an interval), every initial state of it, and every program of constructors, statements on objects as in C85, set_seed, randomize and rand_float (graphs in which any two connected detectors are joined by a path whose rounded weight is below 2^31, e.g. by at most 64 edges: see C61)", "why_tests_cant": "Reproducibility and independence of objects range over all interleavings of calls; a hidden extra draw from the generator or state shared between objects would show only in particular orders.", "anchors": ["src/pymatching/rand/rand_gen.cc: set_seed, randomize, rand_float, global_urng", "src/pymatching/rand/rand_gen.pybind.cc: pybind_rand_gen_methods", "src/pymatching/sparse_blossom/driver/user_graph.cc: add_noise", "src/pymatching/matching.py: add_noise, from_detector_error_model, load_from_check_matrix"]}
{"id": "C88", "title": "Laws for the returned weight", "statement": "The weights returned by decode(..., return_weight=True), decode_batch(..., return_weights=True) and by decoding a sample, without correlations, anywhere in a program with any number of objects, are related as follows, exactly if all weights are integers and otherwise up to about one and a half rounding steps per edge. Renaming detectors, adding the edges in another order or exchanging u and v in add_edge(u, v) changes nothing. More edges, smaller weights or more boundary nodes never make the weight larger. Multiplying all weights by a number c >= 0 multiplies it by c. Changing the sign of the weight w of one edge and toggling the detection events at its ends lowers it by w. Without negative weights, the weight for the exclusive or of two syndromes is at most the sum of their weights. For a graph in two parts with no common detector it is the sum of the weights of the parts.", "quantifier": "for every proper program as in C87, every two or three weights returned in its run, every renaming, every factor, every edge and every division into two parts (graphs in which any two connected detectors are joined by a path whose rounded weight is below 2^31, e.g. by at most 64 edges: see C61)", "why_tests_cant": "Relations between answers for exponentially many related problems; a test compares a few pairs, and a wrong minimum in both would go unnoticed.", "anchors": ["src/pymatching/matching.py: decode, decode_batch, add_noise", "src/pymatching/sparse_blossom/driver/mwpm_decoding.cc: decode_detection_events", "src/pymatching/sparse_blossom/driver/user_graph.cc: to_mwpm, add_noise"]}
{"id": "C89", "title": "decode and decode_to_edges_array describe the same correction", "statement": "On an object that is not changed in between, the fault ids predicted by decode(z) are those of the edges listed by decode_to_edges_array(z). This is false in general: where several corrections have the same least weight, with at most 64 fault ids the two calls may describe different ones. It holds when all (nearly) cheapest explanations of z have the same fault ids, at any two moments of a program at which the network is the same; and it always holds with more than 64 fault ids, for calls with only questions between them.", "quantifier": "for all programs, all networks and syndromes; for more than 64 observables, all graphs, all syndromes and all sequences of calls, ties included (graphs in which any two connected detectors are joined by a path whose rounded weight is below 2^31, e.g. by at most 64 edges: see C61)", "why_tests_cant": "Whether two code paths (observable masks carried along with the regions, and a path search after the matching) break ties alike depends on the whole history of region growth; tests on random weights have no ties.", "anchors": ["src/pymatching/matching.py: decode, decode_to_edges_array", "src/pymatching/sparse_blossom/driver/mwpm_decoding.cc: decode_detection_events, decode_detection_events_to_edges"]}
{"id": "C90", "title": "Decoding raises exactly if an isolated group of detectors has an odd number of events", "statement": "A call of decode, decode_to_edges_array, decode_batch, or (without negative weights) decode_to_matched_dets_array or decode_to_matched_dets_dict raises an exception if and only if the array does not fit the graph, or there is a set of detectors that no edge leaves, neither to another detector nor to the boundary, in which the number of detection events is odd (for a batch: in one of the shots). In particular it never raises if the boundary can be reached from every event, and whether it raises does not depend on weights, fault ids, or the order of the edges.", "quantifier": "for every proper program as in C87 and every question in it, every graph and every syndrome (graphs in which any two connected detectors are joined by a path whose rounded weight is below 2^31, e.g. by at most 64 edges: see C61)", "why_tests_cant": "The condition ranges over all sets of detectors and all syndromes; tests try a few syndromes that have no solution.", "anchors": ["src/pymatching/matching.py: decode, decode_batch, decode_to_edges_array, decode_to_matched_dets_array, decode_to_matched_dets_dict", "src/pymatching/sparse_blossom/driver/mwpm_decoding.cc: process_timeline_until_completion"]}
{"id": "C91", "title": "Questions leave no trace: replies do not depend on which questions were asked before", "statement": "Leave out any of the questions (decode, decode_batch, decode_to_edges_array, matched pairs) and inspections of a program on one Matching object: all other statements get exactly the same replies as before, also where several corrections are equally good. In particular the same question asked again, with nothing but questions and inspections in between, gets the same reply. return_weight and return_weights only add the weights; predictions, exceptions and later replies stay the same. decode_batch gives for each row the prediction and the weight that decode gives for the events of the row. In programs with several objects and samples, all other commands also give the same results and the same random numbers are drawn.", "quantifier": "for every proper program as in C69 or C87, every choice of questions and inspections that are left out, every pair of equal questions, every row of every batch; for return_weight: every program (graphs in which any two connected detectors are joined by a path whose rounded weight is below 2^31, e.g. by at most 64 edges: see C61)", "why_tests_cant": "Tests that decode the same syndrome twice see a few syndromes with unique corrections; which of several best corrections is found could depend on state left behind by any sequence of earlier calls.", "anchors": ["src/pymatching/matching.py: decode, decode_batch, decode_to_edges_array, decode_to_matched_dets_array, decode_to_matched_dets_dict", "src/pymatching/sparse_blossom/driver/user_graph.cc: get_mwpm, get_mwpm_with_search_graph, add_or_merge_edge", "src/pymatching/sparse_blossom/driver/user_graph.pybind.cc: decode, decode_batch", "src/pymatching/sparse_blossom/driver/mwpm_decoding.cc: decode_detection_events"]}
{"id": "C92", "title": "The returned weight is the sum of the weights of the returned edges", "statement": "The weight returned by decode(z, return_weight=True), by decode_batch(..., return_weights=True) for a shot or by decoding a sample, and the edges returned by decode_to_edges_array for the same detection events, without correlations, anywhere in a program with any number of objects: if the two objects have the same edges at these moments, and no weight is negative or there are no parallel edges and no edges from a node to itself (boundary nodes count as one), the weight is the sum over the listed edges (u, v) of the least weight of an edge between u and v, where boundary nodes and the virtual boundary (-1) count as one. Exactly if all weights are integers, otherwise up to about three rounding steps per edge of the graph. This holds also where the two calls describe different corrections.", "quantifier": "for every proper program as in C87, every returned weight and every returned list of edges in its run (graphs in which any two connected detectors are joined by a path whose rounded weight is below 2^31, e.g. by at most 64 edges: see C61)", "why_tests_cant": "Relates two code paths (weights added up along the matching, and a path search after it) on all graphs and syndromes, ties included.", "anchors": ["src/pymatching/matching.py: decode, decode_batch, decode_to_edges_array", "src/pymatching/sparse_blossom/driver/mwpm_decoding.cc: decode_detection_events, decode_detection_events_to_edges", "src/pymatching/sparse_blossom/driver/user_graph.pybind.cc: decode, decode_to_edges_array"]}
{"id": "C93", "title": "The weights of the matched pairs add up to the returned weight", "statement": "If decode_to_matched_dets_array returns some pairs for a syndrome, the weight returned for this syndrome is the sum of the weights returned for the syndromes that consist of just one of the pairs (of one event, if it is paired with the boundary). The calls may be at different moments of a program and on different objects, as long as these have the same edges at these moments; the weights may come from decode with return_weight, decode_batch with return_weights or a decoded sample, without correlations; boundary nodes do not matter. Exactly if all weights are integers, otherwise up to about five rounding steps per edge of the graph and call.", "quantifier": "for every proper program as in C87, every returned array of pairs, every returned weight for the same events, and all returned weights for the pairs (graphs in which any two connected detectors are joined by a path whose rounded weight is below 2^31, e.g. by at most 64 edges: see C61)", "why_tests_cant": "Relates many calls on all graphs and syndromes; which pairs are returned when several are equally good is not determined.", "anchors": ["src/pymatching/matching.py: decode, decode_batch, decode_to_matched_dets_array", "src/pymatching/sparse_blossom/driver/mwpm_decoding.cc: decode_detection_events, decode_detection_events_to_match_edges", "src/pymatching/sparse_blossom/driver/user_graph.pybind.cc: decode, decode_to_matched_detection_events_array"]}
{"id": "C94", "title": "Errors below half the distance are corrected, in every program", "statement": "If every set of edges that flips no detector but flips some fault id costs at least d, and no weight is negative, then what decode or decode_batch predict for a syndrome (packed or not, with or without weights; also for a syndrome from add_noise) are the fault ids of every set of edges that causes this syndrome and costs less than d/2. This holds for every call at every moment of a program with any number of objects, for the edges that the object has at this moment. If not all weights are integers, the cost must be less than d/2 by about three quarters of a rounding step per edge.", "quantifier": "for every proper program as in C87, every prediction without correlations in it, every d, and every set of edges (graphs in which any two connected detectors are joined by a path whose rounded weight is below 2^31, e.g. by at most 64 edges: see C61)", "why_tests_cant": "Over all graphs, syndromes and sets of edges in all program states; which of several solutions of least weight is returned is not determined.", "anchors": ["src/pymatching/matching.py: decode, decode_batch, add_noise", "src/pymatching/sparse_blossom/driver/mwpm_decoding.cc: decode_detection_events", "src/pymatching/sparse_blossom/driver/user_graph.pybind.cc: decode, decode_batch"]}
{"id": "C95", "title": "An unambiguous syndrome has one prediction", "statement": "If all sets of edges that cause a syndrome with the least weight flip the same fault ids, then everything that decode or decode_batch predict for it agrees: at any moment of a program, for any object with the same edges, packed or not, with or without weights, in any order of adding the edges and with their ends exchanged, under any renaming of the nodes, and after all weights are multiplied by the same positive number. Weights may be negative. If not all weights are integers, the fault ids must be the same for all sets of edges that are least up to the rounding of about three halves of a step per edge.", "quantifier": "for every proper program as in C87 and every two predictions without correlations in it (graphs in which any two connected detectors are joined by a path whose rounded weight is below 2^31, e.g. by at most 64 edges: see C61)", "why_tests_cant": "Two calls on arbitrary graphs in arbitrary program states; unit tests compare a few graphs, and equal results there may be due to the order in which the algorithm happens to visit nodes.", "anchors": ["src/pymatching/matching.py: decode, decode_batch, add_edge, add_boundary_edge", "src/pymatching/sparse_blossom/driver/mwpm_decoding.cc: decode_detection_events", "src/pymatching/sparse_blossom/driver/user_graph.pybind.cc: decode, decode_batch"]}
{"id": "C96", "title": "Separate parts of the graph are predicted separately", "statement": "If no edge joins a set of nodes with the other nodes (boundary nodes do not count), as when the graphs for X and Z errors are put into one object, then the prediction of decode or decode_batch for a syndrome is the sum mod 2 of the predictions for the events inside the set and for the events outside, provided that both of these are unambiguous as in C95. The three calls may be at any moments of a program and for any objects with the same edges. No weight is negative; unambiguous means up to the rounding of C95 if not all weights are integers.", "quantifier": "for every proper program as in C87, every set of nodes, and every three predictions without correlations in it (graphs in which any two connected detectors are joined by a path whose rounded weight is below 2^31, e.g. by at most 64 edges: see C61)", "why_tests_cant": "Relates three calls over all graphs, sets of nodes and syndromes; the algorithm grows regions in all parts at the same time, in one queue.", "anchors": ["src/pymatching/matching.py: decode, decode_batch", "src/pymatching/sparse_blossom/driver/mwpm_decoding.cc: decode_detection_events", "src/pymatching/sparse_blossom/driver/user_graph.pybind.cc: decode, decode_batch"]}
{"id": "C97", "title": "A unique best explanation is what every method returns", "statement": "If one set of edges causes a syndrome and every other set of edges that causes it has a larger weight, then decode and decode_batch predict the fault ids of this set, decode_to_edges_array returns its edges (self-loops and edges inside the boundary are not shown), and the returned weight is its weight. This holds for every call at every moment of a program and for every object that has these edges then. If not all weights are integers, the other sets must be heavier by about three halves of a rounding step per edge, and the weight is right up to that.", "quantifier": "for every proper program as in C87, every syndrome with one best set of edges, and every reply without correlations about it (graphs in which any two connected detectors are joined by a path whose rounded weight is below 2^31, e.g. by at most 64 edges: see C61)", "why_tests_cant": "Over all graphs, program states and methods; the methods run different code after matching (observable masks or shortest path search).", "anchors": ["src/pymatching/matching.py: decode, decode_batch, decode_to_edges_array", "src/pymatching/sparse_blossom/driver/mwpm_decoding.cc: decode_detection_events, decode_detection_events_to_edges", "src/pymatching/sparse_blossom/driver/user_graph.pybind.cc: decode, decode_batch, decode_to_edges_array"]}
{"id": "C98", "title": "Edges that are heavier than some explanation do not matter", "statement": "If some set of edges causes a syndrome, and edges that are each heavier than this whole set are added (or left out), then decode and decode_batch predict the same fault ids for this syndrome (if it is unambiguous as in C95 without the heavy edges) and return the same weight. The calls may be at different moments of a program, before and after the edges are added, or for different objects. No weight is negative. If not all weights are integers, heavier means by about three halves of a rounding step per edge, and the weights agree up to such a rounding for both graphs.", "quantifier": "for every proper program as in C87, every two graphs of which one has more edges, and every two replies without correlations in it (graphs in which any two connected detectors are joined by a path whose rounded weight is below 2^31, e.g. by at most 64 edges: see C61)", "why_tests_cant": "Relates calls for different graphs over all graphs and syndromes; a further edge, even if useless, changes the scale of all weights and the order in which regions grow.", "anchors": ["src/pymatching/matching.py: decode, decode_batch, add_edge, add_boundary_edge", "src/pymatching/sparse_blossom/driver/mwpm_decoding.cc: decode_detection_events", "src/pymatching/sparse_blossom/driver/user_graph.cc: get_edge_weight_normalising_constant", "src/pymatching/sparse_blossom/driver/user_graph.pybind.cc: decode, decode_batch"]}
{"id": "C99", "title": "Small errors in the weights do not change the answer", "statement": "Suppose that for the true weights one set of edges is the best explanation of a syndrome, and every other explanation is heavier by more than m. If the object has the same edges, with weights that are wrong by at most m in total (less the rounding of C88, which is 0 if the weights of the object are integers), then decode and decode_batch predict the fault ids of this set, decode_to_edges_array returns its edges, and the returned weight is its weight as the object has it.", "quantifier": "for every proper program as in C87, all true weights, every syndrome with one best explanation, and every reply without correlations about it (graphs in which any two connected detectors are joined by a path whose rounded weight is below 2^31, e.g. by at most 64 edges: see C61)", "why_tests_cant": "Over all graphs and all errors of weights; unit tests perturb a few weights.", "anchors": ["src/pymatching/matching.py: decode, decode_batch, decode_to_edges_array", "src/pymatching/sparse_blossom/driver/mwpm_decoding.cc: decode_detection_events, decode_detection_events_to_edges", "src/pymatching/sparse_blossom/driver/user_graph.cc: get_edge_weight_normalising_constant"]}
{"id": "C100", "title": "Parts of a correctable error are correctable", "statement": "If a set of edges is the only best explanation of the syndrome that it causes, then each part of this set is what every method returns for the syndrome that the part causes: decode and decode_batch predict its fault ids, decode_to_edges_array returns its edges, and the returned weight is its weight. No weight is negative; only best is meant up to the rounding of C97 if not all weights are integers.", "quantifier": "for every proper program as in C87, every set of edges that is the only best explanation of its syndrome, every part of it, and every reply without correlations about the part (graphs in which any two connected detectors are joined by a path whose rounded weight is below 2^31, e.g. by at most 64 edges: see C61)", "why_tests_cant": "Over all graphs and all pairs of a set and a part; a test can only try the sets it lists.", "anchors": ["src/pymatching/matching.py: decode, decode_batch, decode_to_edges_array", "src/pymatching/sparse_blossom/driver/mwpm_decoding.cc: decode_detection_events, decode_detection_events_to_edges"]}
