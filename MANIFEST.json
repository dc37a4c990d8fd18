{"claims":[
  {"property": "C01", "status": "proved", "theorems": ["Verif.Props.Queue.C01_queue_refines_priority_queue", "Verif.Props.Queue.C01_delivery_times_sorted", "Verif.Props.Queue.C01_validation_rejects_past"], "note": "Radix heap refines an abstract priority queue on every operation sequence."},
  {"property": "C02", "status": "proved", "theorems": ["Verif.Props.Queue.C02_cyclic_compare", "Verif.Props.Queue.C02_widen_recovers", "Verif.Props.Queue.C02_widen_window_sharp"], "note": "Cyclic 32-bit comparison and widening, with the sharp window."},
  {"property": "C03", "status": "proved", "theorems": ["Verif.Props.Queue.C03_nothing_lost_or_duplicated", "Verif.Props.Queue.C03_clear_empties"], "note": "Multiset conservation over every operation sequence, and clear."},
  {"property": "C04", "status": "partial", "theorems": ["Verif.Props.Queue.C04_snapshot_complete_partial", "Verif.Props.Queue.C04_snapshot_can_miss_events"], "note": "The full statement is false: the snapshot skips bucket 32, with a reachable witness. The partial theorem covers queues with an empty last bucket."},
  {"property": "C05", "status": "proved", "theorems": ["Verif.Props.Tracker.C05_trackers_refine_alarm_clocks", "Verif.Props.Tracker.C05_no_wakeup_lost"], "note": "Many trackers sharing one queue refine independent alarm clocks."},
  {"property": "C06", "status": "proved", "theorems": ["Verif.Props.Tracker.C06_accept_iff_desired"], "note": ""},
  {"property": "C07", "status": "proved", "theorems": ["Verif.Props.Varying.C07_change_is_continuous", "Verif.Props.Varying.C07_history_integrates", "Verif.Props.Varying.C07_offset"], "note": ""},
  {"property": "C08", "status": "proved", "theorems": ["Verif.Props.Varying.C08_colliding_iff", "Verif.Props.Varying.C08_collision_time_exact", "Verif.Props.Varying.C08_collision_time_first", "Verif.Props.Varying.C08_x_intercept", "Verif.Props.Varying.C08_x_intercept_shrinking"], "note": ""},
  {"property": "C09", "status": "proved", "theorems": ["Verif.Props.Arena.C09_alloc_never_aliases", "Verif.Props.Arena.C09_live_count", "Verif.Props.Arena.C09_reuse", "Verif.Props.Arena.C09_destructor", "Verif.Props.Arena.C09_double_delete_aliases"], "note": "For every client history that frees only live objects; the last theorem shows the precondition is necessary."},
  {"property": "C10", "status": "proved", "theorems": ["Verif.Props.CompressedEdge.C10_concatenation", "Verif.Props.CompressedEdge.C10_assoc", "Verif.Props.CompressedEdge.C10_reversed", "Verif.Props.CompressedEdge.C10_walk_reversed", "Verif.Props.CompressedEdge.C10_there_and_back"], "note": ""},
  {"property": "C100", "status": "proved", "theorems": ["Verif.Props.Portion.C100_program", "Verif.Props.Portion.C100_program_int32"], "note": "Programs as in C87, without correlations; replies as in C97."},
  {"property": "C11", "status": "partial", "theorems": ["Verif.Props.ObsMask.C11_fill_bit_vector", "Verif.Props.ObsMask.C11_fill_rejects", "Verif.Props.ObsMask.C11_mask_of_bits_partial", "Verif.Props.ObsMask.C11_round_trip_partial", "Verif.Props.ObsMask.C11_mask_conversion_fails"], "note": "Filling a vector from a mask is proved in full. The reverse conversion shifts an int: proved for vectors whose set bits are below 31, and proved to fail otherwise."},
  {"property": "C12", "status": "proved", "theorems": ["Verif.Props.Reweight.C12_undo_restores", "Verif.Props.Reweight.C12_reweight_for_edges", "Verif.Props.Reweight.C12_effect"], "note": ""},
  {"property": "C13", "status": "proved", "theorems": ["Verif.Props.Graph.C13_adjacency", "Verif.Props.Graph.C13_symmetric", "Verif.Props.Graph.C13_boundary_first"], "note": ""},
  {"property": "C14", "status": "proved", "theorems": ["Verif.Props.NegWeights.C14_translation", "Verif.Props.NegWeights.C14_negative_weights_optimal", "Verif.Props.Decode.C46_decode_is_minimum_weight"], "note": "The first two for an arbitrary optimal matcher of the translated problem; the third for the modelled decoder itself."},
  {"property": "C15", "status": "proved", "theorems": ["Verif.Props.Graph.C15_negative_bookkeeping", "Verif.Props.Graph.C15_rejected_call_changes_state"], "note": "Proved for every history of accepted insertions, which is what the property is about. Side finding with witness: a rejected second boundary edge of negative weight changes the bookkeeping before raising; C35_conversion_accepted shows the user-level graph never issues such a call."},
  {"property": "C16", "status": "proved", "theorems": ["Verif.Props.UserGraph.C16_one_edge_per_pair", "Verif.Props.UserGraph.C16_lookup", "Verif.Props.UserGraph.C16_rejected_call_changes_nothing"], "note": ""},
  {"property": "C17", "status": "proved", "theorems": ["Verif.Props.UserGraph.C17_keep_original", "Verif.Props.UserGraph.C17_disallow", "Verif.Props.UserGraph.C17_replace", "Verif.Props.UserGraph.C17_smallest_weight", "Verif.Props.UserGraph.C17_independent"], "note": ""},
  {"property": "C18", "status": "partial", "theorems": ["Verif.Props.UserGraph.C18_statement_false", "Verif.Props.UserGraph.C18_fault_ids_covered_partial", "Verif.Props.UserEdges.C18_decode_out_of_bounds"], "note": "The full statement (C18_statement) is false: replacing an edge does not update the count; witness proved. The partial theorem covers histories in which no replacement introduces a new largest fault id. C18_decode_out_of_bounds: with more than 64 fault ids the failure makes decode write past the end of the predictions."},
  {"property": "C19", "status": "proved", "theorems": ["Verif.Props.Discretise.C19_constant", "Verif.Props.Discretise.C19_weights", "Verif.Props.Discretise.C19_monotone_odd", "Verif.Props.Discretise.C19_integers_exact"], "note": "Over an ordered field instead of IEEE doubles."},
  {"property": "C20", "status": "proved", "theorems": ["Verif.Props.MergeWeights.C20_merge_is_llr_of_xor", "Verif.Props.MergeWeights.C20_merge_commutative_associative", "Verif.Props.MergeWeights.C20_merge_magnitude", "Verif.Props.MergeWeights.C20_parallel_edges"], "note": "Over the reals instead of IEEE doubles."},
  {"property": "C21", "status": "proved", "theorems": ["Verif.Props.Dem.C21_load", "Verif.Props.Dem.C21_load_with_correlations_rejects", "Verif.Props.Dem.C21_load_with_correlations"], "note": "The model starts from the flattened list of error instructions; stim itself is not modelled."},
  {"property": "C22", "status": "partial", "theorems": ["Verif.Props.Dem.C22_joint", "Verif.Props.Dem.C22_joint_partial", "Verif.Props.Dem.C22_statement_false", "Verif.Props.Dem.C22_rules"], "note": "The full statement (C22_statement) is false when one decomposed error lists a component twice; the partial theorem covers errors with distinct components."},
  {"property": "C23", "status": "proved", "theorems": ["Verif.Props.CheckMatrix.C23_load", "Verif.Props.CheckMatrix.C23_more_than_two_rejected", "Verif.Props.CheckMatrix.C23_sizes_rejected", "Verif.Props.CheckMatrix.C23_malformed_rejected", "Verif.Props.CheckMatrix.C23_shape"], "note": "C23_load gives the exact history of edge insertions; C16 and C17 then describe the edges. The Python-side conversion of arguments and dense matrices is in C66, C67."},
  {"property": "C24", "status": "proved", "theorems": ["Verif.Props.EdgeMarks.C24_edges_of_odd_multiplicity", "Verif.Props.EdgeMarks.C24_same_syndrome", "Verif.Props.EdgeMarks.C24_built_graphs", "Verif.Props.Edges.C24_decode_to_edges", "Verif.Props.UserEdges.C49_edges_partial", "Verif.Props.Width32.C24_decode_to_edges_int32"], "note": "The first three for arbitrary lists of negative-weight edges and path edges; the last for the whole call: it ends and lists a correction of minimum weight, for any earlier use of the decoder. The theorems named _int32 are about the decoder with its 32-bit field, under the restriction of the quantifier; the others are about an unbounded field, on all graphs."},
  {"property": "C25", "status": "proved", "theorems": ["Verif.Props.Search.C25_shortest_path", "Verif.Props.Search.C25_from_middle", "Verif.Props.Search.C25_nodes", "Verif.Props.Search.C25_nodes_boundary"], "note": "For graphs without parallel edges or self-loops, with even weights below 2^31 (what the loader produces); includes termination and that the flooder is reusable afterwards."},
  {"property": "C26", "status": "partial", "theorems": ["Verif.Props.Search.C26_undefined_iff", "Verif.Props.Search.C26_statement_false", "Verif.Props.Search.C26_paths_partial"], "note": "The full statement (C26_statement) is false: unconnected or equal endpoints dereference a null collision edge, and indices are used before the range check. C26_undefined_iff characterises the failing queries exactly."},
  {"property": "C27", "status": "proved", "theorems": ["Verif.Props.AltTrees.C27_become_root"], "note": "The pointer structure of alternating trees, for all trees of all sizes. The pointer of the inner region to its node is not updated by become_root and is not part of the statement (nothing reads it afterwards)."},
  {"property": "C28", "status": "proved", "theorems": ["Verif.Props.AltTrees.C28_common_ancestor", "Verif.Props.AltTrees.C28_prune"], "note": "The two calls of prune_upward_path_stopping_before in handle_tree_hitting_same_tree, and the search for the common ancestor."},
  {"property": "C29", "status": "proved", "theorems": ["Verif.Props.Dynamics.C29_dissolved", "Verif.Props.Dynamics.C31_certified", "Verif.Props.Width32.C29_dissolved_int32"], "note": "At the end of every decode by the model, for every region, any nesting and any odd cycle lengths; C31_certified covers the whole extraction. The theorems named _int32 are about the decoder with its 32-bit field, under the restriction of the quantifier; the others are about an unbounded field, on all graphs."},
  {"property": "C30", "status": "proved", "theorems": ["Verif.Props.Dynamics.C30_reopened", "Verif.Props.Dynamics.C30_alternating", "Verif.Props.Width32.C30_alternating_int32", "Verif.Props.Width32.C30_reopened_int32"], "note": "For every state of every decode in which a blossom is about to be opened, any odd cycle length and any contact positions. Slopes of the regions afterwards are given by Alternating. The theorems named _int32 are about the decoder with its 32-bit field, under the restriction of the quantifier; the others are about an unbounded field, on all graphs."},
  {"property": "C31", "status": "proved", "theorems": ["Verif.Props.Dynamics.C31_certified", "Verif.Props.Dynamics.C31_dual_bound", "Verif.Props.Width32.C31_certified_int32"], "note": "The general bound for any dual solution, and that the final state of every decode is such a solution, attained by the returned matching. The theorems named _int32 are about the decoder with its 32-bit field, under the restriction of the quantifier; the others are about an unbounded field, on all graphs."},
  {"property": "C32", "status": "proved", "theorems": ["Verif.Props.Shots.C32_shots_independent", "Verif.Props.Shots.C32_shots_independent_correlated", "Verif.Props.Width32.C32_shots_independent_int32", "Verif.Props.Width32.C32_shots_independent_correlated_int32"], "note": "Same predictions, weight, edges, mask, matched pairs (with their order) or exception as on a new decoder, for every sequence of calls of all kinds with valid events, and nothing is left behind. Calls without correlations: every graph. With correlations: graphs where no implied weight is for an edge of negative weight. The clock is reset at the start of the next call. Calls that raise for invalid events are C33. The theorems named _int32 are about the decoder with its 32-bit field, under the restriction of the quantifier; the others are about an unbounded field, on all graphs."},
  {"property": "C33", "status": "partial", "theorems": ["Verif.Props.Decode.C33_statement_false", "Verif.Props.Decode.C33_invalid_event_partial", "Verif.Props.Invalid.C33_history_partial", "Verif.Props.Invalid.C33_stuck"], "note": "The full statement (C33_statement) is false: a valid event listed before the invalid one leaves a wake-up call in the queue, and the next call raises. C33_history_partial: if only boundary nodes are listed before each invalid event, then in any history of modifications and questions on one object (batches and negative weights included) each invalid question raises and every other question is answered as by a new object. C33_stuck: after an invalid event behind a detector with an edge, every question that uses the same decoder raises for ever, until the graph is changed; then answers are right again."},
  {"property": "C34", "status": "proved", "theorems": ["Verif.Props.ObsMask.C34_unpacked_events", "Verif.Props.ObsMask.C34_packed_events", "Verif.Props.ObsMask.C34_packed_equals_unpacked", "Verif.Props.ObsMask.C34_packed_predictions", "Verif.Props.ObsMask.C34_unpack_pack", "Verif.Props.ObsMask.C34_shapes"], "note": ""},
  {"property": "C35", "status": "proved", "theorems": ["Verif.Props.Convert.C35_counts", "Verif.Props.Convert.C35_conversion", "Verif.Props.Convert.C35_conversion_accepted", "Verif.Props.Convert.C35_boundary_nodes_never_preflipped", "Verif.Props.Convert.C35_boundary_events_ignored", "Verif.Props.Convert.C35_started_nodes"], "note": ""},
  {"property": "C36", "status": "proved", "theorems": ["Verif.Props.Noise.C36_noise_consistent", "Verif.Props.Noise.C36_no_probability_no_noise"], "note": "For an arbitrary sequence of random draws. Hypothesis: every fault id is below num_fault_ids (without it the code writes out of bounds; an example beside the theorem shows the stray write, and C18 shows how such a graph arises)."},
  {"property": "C37", "status": "proved", "theorems": ["Verif.Props.Syndrome.C37_one_dim", "Verif.Props.Syndrome.C37_two_dim", "Verif.Props.Syndrome.C37_injective", "Verif.Props.Syndrome.C37_rejected"], "note": ""},
  {"property": "C38", "status": "proved", "theorems": ["Verif.Props.Decode.C38_matched_pairs", "Verif.Props.Width32.C38_matched_pairs_int32"], "note": "Every call completes (C50). decode_to_matched_dets_array/dict raise for graphs with negative weights. The theorems named _int32 are about the decoder with its 32-bit field, under the restriction of the quantifier; the others are about an unbounded field, on all graphs."},
  {"property": "C39", "status": "proved", "theorems": ["Verif.Props.Dynamics.C39_cached_radii", "Verif.Props.Width32.C39_cached_radii_int32"], "note": "In every state between two rounds of every decode. The theorems named _int32 are about the decoder with its 32-bit field, under the restriction of the quantifier; the others are about an unbounded field, on all graphs."},
  {"property": "C40", "status": "proved", "theorems": ["Verif.Props.Dynamics.C40_next_event", "Verif.Props.Dynamics.C40_nothing_missed", "Verif.Props.Width32.C40_next_event_int32", "Verif.Props.Width32.C40_nothing_missed_int32"], "note": "In every state between two rounds of every decode; C40_nothing_missed also shows that no wake-up call is lost. The theorems named _int32 are about the decoder with its 32-bit field, under the restriction of the quantifier; the others are about an unbounded field, on all graphs."},
  {"property": "C41", "status": "partial", "theorems": ["Verif.Props.Edges.C41_statement_false", "Verif.Props.Edges.C41_weight_of_edges", "Verif.Props.Edges.C41_weight_of_edges_partial", "Verif.Props.Width32.C41_weight_of_edges_int32", "Verif.Props.Width32.C41_weight_of_edges_int32_partial"], "note": "The full statement (C41_statement) is false: self-loops of negative weight count for the weight but are not returned as edges. C41_weight_of_edges gives the exact relation for every graph; the partial theorem is the stated equality for graphs without such self-loops. The theorems named _int32 are about the decoder with its 32-bit field, under the restriction of the quantifier; the others are about an unbounded field, on all graphs."},
  {"property": "C42", "status": "partial", "theorems": ["Verif.Props.Api.C42_checks_partial", "Verif.Props.Api.C42_statement_false"], "note": "The full statement (C42_statement) is false: a NaN weight passes the check. The partial theorem covers every other weight, including infinities, and also unknown merge strategies."},
  {"property": "C43", "status": "partial", "theorems": ["Verif.Props.Api.C43_current_partial", "Verif.Props.Api.C43_without_ensure", "Verif.Props.Api.C43_statement_false"], "note": "The full statement (C43_statement) is false: ensure_num_fault_ids after a decode does not invalidate the cached decoder. Everything except the number of observables is always current."},
  {"property": "C44", "status": "partial", "theorems": ["Verif.Props.Cli.C44_predict", "Verif.Props.Cli.C44_count_partial", "Verif.Props.Cli.C44_statement_false", "Verif.Props.Cli.C44_statement_false_many_observables", "Verif.Props.Cli.C44_statement_false_overcount", "Verif.Props.Cli.C44_statement_false_no_source"], "note": "predict is proved. count_mistakes is right for at most 64 observables; with more it compares truncated masks (witnesses in both directions), and a missing observables source is not detected. The decoder is a parameter."},
  {"property": "C45", "status": "partial", "theorems": ["Verif.Props.Networkx.C45_rustworkx_partial", "Verif.Props.Networkx.C45_networkx_partial", "Verif.Props.Networkx.C45_statement_false_networkx", "Verif.Props.Networkx.C45_statement_false_rustworkx"], "note": "The full statement (C45_statement) is false: networkx loses isolated nodes, and both imports drop edges heavier than 2^24-1. The partial theorems cover all other graphs, for every edge order and orientation the libraries may list."},
  {"property": "C46", "status": "proved", "theorems": ["Verif.Props.Decode.C46_decode_is_minimum_weight", "Verif.Props.Decode.C50_decode_terminates", "Verif.Props.Edges.C46_any_number_of_observables", "Verif.Props.Width32.C46_decode_is_minimum_weight_int32", "Verif.Props.Width32.C46_any_number_of_observables_int32"], "note": "For every run of the model that completes (all do: C50), any number of observables, distinct in-range events, and any earlier use of the decoder. Weights are the discretised ones (C19); undefined behaviour is excluded. The theorems named _int32 are about the decoder with its 32-bit field, under the restriction of the quantifier; the others are about an unbounded field, on all graphs."},
  {"property": "C47", "status": "proved", "theorems": ["Verif.Props.UserGraph.C47_probabilities_valid"], "note": ""},
  {"property": "C48", "status": "proved", "theorems": ["Verif.Props.EndToEnd.C48_rounding_error"], "note": "Over an ordered field instead of IEEE doubles."},
  {"property": "C49", "status": "partial", "theorems": ["Verif.Props.EndToEnd.C49_statement_false", "Verif.Props.EndToEnd.C49_decode_user_graph_partial", "Verif.Props.UserEdges.C49_any_number_of_fault_ids_partial", "Verif.Props.UserEdges.C49_edges_partial", "Verif.Props.Width32.C49_decode_user_graph_int32_partial", "Verif.Props.Width32.C49_any_number_of_fault_ids_int32_partial", "Verif.Props.Width32.C49_edges_int32_partial"], "note": "The full statement (C49_statement) is false: of several edges from one detector to different boundary nodes only the lightest is kept, so two negative ones are never both used, and negative edges between boundary nodes are dropped. The partial theorem covers all graphs without such profitable combinations (in particular all graphs without negative edges to the boundary), for decode with any number of fault ids and for decoding to edges; every call completes (C50). Missing: graphs with such combinations (C86 says what is returned for them), and graphs whose fault ids exceed num_fault_ids (C18). The theorems named _int32 are about the decoder with its 32-bit field, under the restriction of the quantifier; the others are about an unbounded field, on all graphs."},
  {"property": "C50", "status": "partial", "theorems": ["Verif.Props.Narrow.C61_hangs", "Verif.Props.Width32.C50_decode_terminates_int32", "Verif.Props.Width32.C50_pairs_terminate_int32", "Verif.Props.Width32.C50_user_graph_terminates_int32", "Verif.Props.Decode.C50_decode_terminates", "Verif.Props.Decode.C50_pairs_terminate", "Verif.Props.EndToEnd.C50_user_graph_terminates", "Verif.Props.Edges.C46_any_number_of_observables", "Verif.Props.Edges.C24_decode_to_edges", "Verif.Props.UserEdges.C49_any_number_of_fault_ids_partial", "Verif.Props.UserEdges.C49_edges_partial"], "note": "False as compiled: on a chain of 66 detectors decode runs forever (C61_hangs; C61). The theorems named _int32 cover the decoder as compiled on graphs in which any two connected detectors are joined by a path of weight below 2^31; the others cover all graphs if the wrapped radius were not cut off to 32 bits. Missing: other graphs as compiled."},
  {"property": "C51", "status": "proved", "theorems": ["Verif.Props.Correlated.C51_correlated_observables", "Verif.Props.Correlated.C51_correlated_edges", "Verif.Props.Correlated.C51_correlated_mask", "Verif.Props.Correlated.C51_no_trace", "Verif.Props.Width32.C51_correlated_observables_int32", "Verif.Props.Width32.C51_correlated_edges_int32", "Verif.Props.Width32.C51_correlated_mask_int32", "Verif.Props.Width32.C51_no_trace_int32"], "note": "All three correlated calls, after any earlier use of the decoder; C51_no_trace: the weights and the state are restored whenever a call returns. Implied weights only for edges of nonnegative weight (see C52). The theorems named _int32 are about the decoder with its 32-bit field, under the restriction of the quantifier; the others are about an unbounded field, on all graphs."},
  {"property": "C52", "status": "partial", "theorems": ["Verif.Props.Correlated.C52_statement_false", "Verif.Props.Correlated.C52_weight_partial", "Verif.Props.Width32.C52_weight_int32_partial"], "note": "The full statement (C52_statement) is false for rules with implied weight 0 and a target of negative weight; the partial theorem excludes rules for edges of negative weight. The theorems named _int32 are about the decoder with its 32-bit field, under the restriction of the quantifier; the others are about an unbounded field, on all graphs."},
  {"property": "C53", "status": "proved", "theorems": ["Verif.Props.DemCorr.C53_decoder_exists", "Verif.Props.DemCorr.C53_self_loop_rejected", "Verif.Props.DemCorr.C53_observables", "Verif.Props.DemCorr.C53_edges", "Verif.Props.DemCorr.C53_mask", "Verif.Props.Width32.C53_observables_int32", "Verif.Props.Width32.C53_edges_int32", "Verif.Props.Width32.C53_mask_int32"], "note": "Over the real numbers, for error probabilities at most 1/2. A component that names one detector twice next to another component makes building the decoder raise (C53_self_loop_rejected). The weight bound 2^24-1 is a hypothesis of C53_decoder_exists; the other theorems hold for every decoder that was built. The theorems named _int32 are about the decoder with its 32-bit field, under the restriction of the quantifier; the others are about an unbounded field, on all graphs."},
  {"property": "C54", "status": "proved", "theorems": ["Verif.Props.Object.C54_as_new", "Verif.Props.Object.C54_one_answer", "Verif.Props.Object.C54_path_fits", "Verif.Props.Narrow.C54_as_new_int32"], "note": "The whole object: graph, cache, decoder state. Conditions are those of Proper and Askable: a decoder can be built, fault ids covered, events are nodes, no correlations with negative weights, no raise of num_fault_ids between a question and the next change of the graph (see C43), and path queries that have defined behaviour on a new object (C26). Floating point numbers are elements of an ordered field. The theorems named _int32 are about the decoder with its 32-bit field, under the restriction of the quantifier; the others are about an unbounded field, on all graphs."},
  {"property": "C55", "status": "proved", "theorems": ["Verif.Props.Object.C55_batch", "Verif.Props.Object.C55_shape", "Verif.Props.Object.C55_formats", "Verif.Props.Narrow.C55_batch_int32"], "note": "For all four combinations of packing, with and without correlations; rows may not name nodes that do not exist (padding bits are zero). The theorems named _int32 are about the decoder with its 32-bit field, under the restriction of the quantifier; the others are about an unbounded field, on all graphs."},
  {"property": "C56", "status": "proved", "theorems": ["Verif.Props.Likelihood.C56_most_likely", "Verif.Props.Likelihood.C56_detectors", "Verif.Props.Likelihood.C56_observables", "Verif.Props.Likelihood.C56_decoder_exists", "Verif.Props.Width32.C56_most_likely_int32"], "note": "Over the real numbers. Errors with suggested decompositions, or with more than two detectors, are excluded (Graphlike). If parallel errors flip different observables, the predictions are those of the first of them; if they agree (Consistent), they are the observables that the errors flip. The weight bound 2^24-1 is a hypothesis of C56_decoder_exists only. The theorems named _int32 are about the decoder with its 32-bit field, under the restriction of the quantifier; the others are about an unbounded field, on all graphs."},
  {"property": "C57", "status": "proved", "theorems": ["Verif.Props.CliRun.C57_predict", "Verif.Props.CliRun.C57_count", "Verif.Props.CliRun.C57_rejected", "Verif.Props.CliRun.C57_decoder_exists", "Verif.Props.Narrow.C57_predict_int32", "Verif.Props.Narrow.C57_count_int32"], "note": "On the actual decoder (C44 takes it as a parameter). Detection events of a shot are distinct detectors of the model; that a decoder can be built is a hypothesis, met under the conditions of C57_decoder_exists. Reading arguments and files is stim code and not modelled. The theorems named _int32 are about the decoder with its 32-bit field, under the restriction of the quantifier; the others are about an unbounded field, on all graphs."},
  {"property": "C58", "status": "proved", "theorems": ["Verif.Props.Answers.C58_any_time", "Verif.Props.Answers.C58_new", "Verif.Props.Answers.C58_correlated", "Verif.Props.Answers.C58_loaded", "Verif.Props.Answers.C58_predict", "Verif.Props.Narrow.C58_any_time_int32", "Verif.Props.Narrow.C58_new_int32", "Verif.Props.Narrow.C58_loaded_int32", "Verif.Props.Narrow.C58_predict_int32"], "note": "Combines C54, C55, C57 with C49 and C53. Conditions are those of C54 (Proper, Askable) and, without correlations, NoGain (without it the statement is false, see C49); graphs loaded from detector error models meet NoGain. Scale is the factor that weights are multiplied with before rounding. The theorems named _int32 are about the decoder with its 32-bit field, under the restriction of the quantifier; the others are about an unbounded field, on all graphs."},
  {"property": "C59", "status": "proved", "theorems": ["Verif.Props.Pairs.C59_any_time", "Verif.Props.Narrow.C59_any_time_int32"], "note": "Conditions are those of C58. Weights are the scaled and rounded ones. The call rejects graphs with negative weights, so weights are nonnegative whenever pairs are returned. The theorems named _int32 are about the decoder with its 32-bit field, under the restriction of the quantifier; the others are about an unbounded field, on all graphs."},
  {"property": "C60", "status": "proved", "theorems": ["Verif.Props.Paths.C60_any_time", "Verif.Props.Paths.C60_defined", "Verif.Props.Narrow.C60_any_time_int32"], "note": "Conditions are those of C54. Paths lead through detectors, not through boundary nodes. For queries that involve the boundary NoGain is a hypothesis, since only the edge of least signed weight from a detector to the boundary is kept. The theorems named _int32 are about the decoder with its 32-bit field, under the restriction of the quantifier; the others are about an unbounded field, on all graphs."},
  {"property": "C61", "status": "partial", "theorems": ["Verif.Props.Narrow.C61_hangs", "Verif.Props.Narrow.C61_statement_false", "Verif.Props.Narrow.C61_same_partial", "Verif.Props.Narrow.C61_near", "Verif.Props.Narrow.C61_near_integers"], "note": "The full statement (C61_statement) is false: C61_hangs is a chain of 66 detectors on which decode, decode_to_edges_array and decode_to_matched_dets_array never return. The partial theorem covers all histories in which, at each question, any two connected detectors are joined by a path of rounded weight below 2^31; C61_near: it suffices that they are joined by at most 64 edges, or that the graph has at most 65 nodes; C61_near_integers: for integer weights, that the largest absolute weight times the number of nodes is at most 2^30 (unweighted graphs up to 2^30 nodes)."},
  {"property": "C62", "status": "proved", "theorems": ["Verif.Props.MatrixDecode.C62_loads", "Verif.Props.MatrixDecode.C62_decode", "Verif.Props.MatrixDecode.C62_decode_int32", "Verif.Props.MatrixDecode.C62_batch", "Verif.Props.MatrixDecode.C62_any_time", "Verif.Props.MatrixDecode.C62_syndrome_history", "Verif.Props.MatrixDecode.C62_solution", "Verif.Props.MatrixDecode.C62_almost", "Verif.Props.MatrixDecode.C62_integers", "Verif.Props.MatrixDecode.C62_batch_int32", "Verif.Props.MatrixDecode.C62_any_time_int32", "Verif.Props.MatrixDecode.C62_syndrome_history_int32", "Verif.Props.MatrixDecode.C62_solution_int32", "Verif.Props.MatrixDecode.C62_near", "Verif.Props.MatrixDecode.C62_condition_needed"], "note": "The theorems with suffix _int32 are the versions for the 32-bit field of the code (graphs that are Near, see C61); C62_near gives a condition on the matrix. C62_condition_needed shows that the condition on zero columns is necessary."},
  {"property": "C63", "status": "proved", "theorems": ["Verif.Props.RoundTrip.C63_sample_decode", "Verif.Props.RoundTrip.C63_sample_decode_int32"], "note": "The _int32 version is for the 32-bit field of the code (graphs that are Near, see C61)."},
  {"property": "C64", "status": "proved", "theorems": ["Verif.Props.RoundTrip.C64_corrects", "Verif.Props.RoundTrip.C64_corrects_int32", "Verif.Props.RoundTrip.C64_matrix", "Verif.Props.RoundTrip.C64_matrix_int32", "Verif.Props.RoundTrip.C64_unit", "Verif.Props.RoundTrip.C64_unit_int32"], "note": "The _int32 versions are for the 32-bit field of the code (graphs that are Near, see C61); with unit weights and one repetition this is no restriction below 2^30 rows."},
  {"property": "C65", "status": "proved", "theorems": ["Verif.Props.Double.C65_weights", "Verif.Props.Double.C65_builds", "Verif.Props.Double.C65_builds_rules", "Verif.Props.Double.C65_as_integers", "Verif.Props.Double.C65_answers", "Verif.Props.Double.C65_answers_int32", "Verif.Props.Double.C65_near", "Verif.Props.Double.C65_tiny_undefined", "Verif.Props.Double.C65_tiny_weight"], "note": "For new objects (C68: an object answers as a new one). C65_answers_int32 is for the 32-bit field of the code (graphs that are Near, see C61). With correlations only C65_as_integers is stated. C65_tiny_* are the negative results for weights that are too small."},
  {"property": "C66", "status": "proved", "theorems": ["Verif.Props.Python.C66_arguments", "Verif.Props.Python.C66_refused", "Verif.Props.Python.C66_defined", "Verif.Props.Python.C66_decode", "Verif.Props.Python.C66_decode_int32", "Verif.Props.Python.C66_wrong_shape", "Verif.Props.Python.C66_solution", "Verif.Props.Python.C66_fewest"], "note": "One chain from the Python arguments to the returned array, in double precision; C66_decode_int32 and C66_fewest with the 32-bit radius of the code. numpy and scipy conversions are trusted as described in DESIGN 3l."},
  {"property": "C67", "status": "partial", "theorems": ["Verif.Props.Python.C67_entries_partial", "Verif.Props.Python.C67_statement_false"], "note": "False of the code: entries are cast to uint8 before they are checked, so that 257 (or -255) is read as 1. Proved: an entry that is not 0 and not 1 modulo 256 is refused."},
  {"property": "C68", "status": "proved", "theorems": ["Verif.Props.DoubleHistory.C68_any_time", "Verif.Props.DoubleHistory.C68_any_time_int32"], "note": "C68_any_time_int32 is for the 32-bit field of the code (graphs that are Near, see C61). The conditions on a history are those of C54."},
  {"property": "C69", "status": "proved", "theorems": ["Verif.Props.Session.C69_program", "Verif.Props.Session.C69_program_int32", "Verif.Props.Session.C69_boundary_qubit_id_dropped"], "note": "C69_program_int32 is for the 32-bit field of the code (small networks, see C61). The weight that the strategy independent computes is a parameter. C69_boundary_qubit_id_dropped: add_boundary_edge ignores qubit_id."},
  {"property": "C70", "status": "proved", "theorems": ["Verif.Props.LikelihoodD.C70_most_likely", "Verif.Props.LikelihoodD.C70_most_likely_int32", "Verif.Props.Arithmetic.C70_arithmetic", "Verif.Props.Arithmetic.C70_precise"], "note": "C56 in double precision, for any number of shots on one object. std::exp and std::log are arbitrary functions with a given accuracy (Library); all other operations are rounded to 53 bits. One hypothesis is about the loaded weights: all integers, or one of absolute value at least 2^-998 (NotTiny; see C65). Errors with suggested decompositions, or with more than two detectors, are excluded (Graphlike). The theorem named _int32 is about the decoder with its 32-bit field, for models whose graph is small enough (NearD, e.g. at most 65 detectors). Shots are lists of distinct detectors."},
  {"property": "C71", "status": "proved", "theorems": ["Verif.Props.Session.C71_inspection", "Verif.Props.Session.C71_harmless", "Verif.Props.Session.C71_one_link", "Verif.Props.Session.C69_program", "Verif.Props.Session.C69_program_int32"], "note": "C71_inspection is for programs without questions, and needs nothing but that no weight is NaN. In programs that also ask questions the replies of the statements that look are right as well, under the conditions of C69 (C69_program, C69_program_int32: Right contains Sees). Error probabilities are rational numbers here: their arithmetic is not rounded."},
  {"property": "C72", "status": "proved", "theorems": ["Verif.Props.Session.C72_pairs", "Verif.Props.Session.C72_pairs_int32", "Verif.Props.Session.C72_same_pairs", "Verif.Props.Session.C69_program", "Verif.Props.Session.C69_program_int32"], "note": "C59 in double precision, in programs. The conditions are those of C69 (ProperProgram). C72_same_pairs needs no condition but that no event occurs twice in the array, which C72_pairs provides. C72_pairs_int32 is for the 32-bit field of the code."},
  {"property": "C73", "status": "proved", "theorems": ["Verif.Props.MatrixSession.C73_program", "Verif.Props.MatrixSession.C73_program_int32"], "note": "The network is given by matrixNet, which does not use the model of the loader. The conditions on the program are those of C69 (ProperProgram). C73_program_int32 is for the 32-bit field of the code."},
  {"property": "C74", "status": "proved", "theorems": ["Verif.Props.MatrixSession.C74_questions", "Verif.Props.MatrixSession.C74_questions_int32"], "note": "C66 for whole sessions, and for decode_batch. For the matched pairs the theorem says when they raise; what they return is in C73 with C69 and C72. C74_questions_int32 is for the 32-bit field of the code. Arrays with one entry more than there are detectors, which may be meant for the boundary node, are left out."},
  {"property": "C75", "status": "proved", "theorems": ["Verif.Props.DemSession.C75_program", "Verif.Props.DemSession.C75_program_int32"], "note": "The network is given by demNet, which does not use the model of the loader. The conditions on the program are those of C69 (ProperProgram). C75_program_int32 is for the 32-bit field of the code."},
  {"property": "C76", "status": "proved", "theorems": ["Verif.Props.DemSession.C76_questions", "Verif.Props.DemSession.C76_questions_int32"], "note": "C70 for whole sessions of Python statements, with decode_batch, decode_to_edges_array and matched pairs. Hypotheses as in C70: Precise (which Arithmetic.C70_precise proves for the formulas of the code), and the loaded weights are integers or one of them is not tiny. C76_questions_int32 is for the 32-bit field of the code."},
  {"property": "C77", "status": "proved", "theorems": ["Verif.Props.Programs.C77_program", "Verif.Props.Programs.C77_program_int32", "Verif.Props.Programs.C77_simple"], "note": "graphNet gives the network and does not use the model of the loader; C77_simple says what it is for graphs without parallel edges. The conditions on the program are those of C69 (ProperProgram). C77_program_int32 is for the 32-bit field of the code."},
  {"property": "C78", "status": "proved", "theorems": ["Verif.Props.Programs.C78_program", "Verif.Props.Programs.C78_program_int32"], "note": "Went says which replies are right. The loads have the conditions of C73, C75, C77 and C81 (Gives). C78_program_int32 is for the 32-bit field of the code, with the condition that the networks are small when they are asked about."},
  {"property": "C79", "status": "proved", "theorems": ["Verif.Props.Conditioned.C79_new", "Verif.Props.Conditioned.C79_any_time", "Verif.Props.Conditioned.C79_no_rules", "Verif.Props.ConditionedD.C79_any_time_int32"], "note": "Over any ordered field; C79_any_time_int32 is for the 32-bit field of the code. Negative weights are excluded since the code is wrong for them (C52). options and Second give the weights of the second pass."},
  {"property": "C80", "status": "proved", "theorems": ["Verif.Props.ConditionedD.C80_any_time", "Verif.Props.ConditionedD.C80_any_time_int32"], "note": "optionsD and SecondD give the weights of the second pass as exact rationals; Found, CloseFor and MeansC say what the answers are. C80_any_time_int32 is for the 32-bit field of the code."},
  {"property": "C81", "status": "proved", "theorems": ["Verif.Props.DemRules.C81_program", "Verif.Props.DemRules.C81_program_int32", "Verif.Props.DemRules.C81_refused", "Verif.Props.DemRules.C81_ready", "Verif.Props.DemRules.C81_nonneg", "Verif.Props.Programs.C78_program", "Verif.Props.Programs.C78_program_int32", "Verif.Props.Session.C69_program", "Verif.Props.Session.C69_program_int32"], "note": "corrNet gives the network and does not use the model of the loader. Right says what the replies are; C78 and C69 are about programs that may ask with correlations as well. The arithmetic for probabilities, the logarithm and merging of weights are parameters (C81_ready: no weight is negative; C81_nonneg: so it is without rounding, if weights of probabilities up to one half are not negative). Errors with a repeated component are excluded (see C22)."},
  {"property": "C82", "status": "proved", "theorems": ["Verif.Props.RulesD.C82_numbers", "Verif.Props.RulesD.C82_range", "Verif.Props.RulesD.C82_ready", "Verif.Props.RulesD.C82_means", "Verif.Props.RulesD.C82_program", "Verif.Props.RulesD.C82_program_int32"], "note": "Operations are rounded to 53 bits (no fused multiply-add); exp and log are any functions with the accuracy of Library (C70), which need not be monotone. Therefore C82_ready asks for weights that are not negative: with such a library the weight of a probability next to one half might come out slightly below zero."},
  {"property": "C83", "status": "proved", "theorems": ["Verif.Props.CliD.C83_decode", "Verif.Props.CliD.C83_decode_int32", "Verif.Props.CliD.C83_same", "Verif.Props.CliD.C83_correlated", "Verif.Props.CliD.C83_correlated_int32", "Verif.Props.CliD.C83_plain", "Verif.Props.CliD.C83_plain_int32", "Verif.Props.CliD.C83_refused", "Verif.Props.CliD.C83_no_decoder", "Verif.Props.CliD.C83_looped"], "note": "Shots are given as lists of detectors; reading and writing the shot formats of stim, and the parsing of the options, are not modelled (see C57). C83_decode speaks of the same weights in tool and program, whatever the functions for weights are; C83_plain and C83_correlated use those of the code."},
  {"property": "C84", "status": "proved", "theorems": ["Verif.Props.LikelyD.C84_program", "Verif.Props.LikelyD.C84_program_int32", "Verif.Props.LikelyD.C84_predict", "Verif.Props.LikelyD.C84_count"], "note": "The likelihood treats links as independent, as the library does. The probabilities are exact rational numbers; the model and the arithmetic are those of C82. Links from a node to itself are not in a first explanation that counts."},
  {"property": "C85", "status": "proved", "theorems": ["Verif.Props.Simulate.C85_program", "Verif.Props.Simulate.C85_program_int32", "Verif.Props.Simulate.C85_model", "Verif.Props.Simulate.C85_model_int32", "Verif.Props.Simulate.C85_correlated", "Verif.Props.Simulate.C85_correlated_int32", "Verif.Props.Simulate.C85_always", "Verif.Props.Simulate.C85_corrected", "Verif.Props.Simulate.C85_corrected_loop", "Verif.Props.Simulate.C85_failures", "Verif.Props.Simulate.C85_still_none"], "note": "The random source is an arbitrary sequence of rational numbers for each sample. Merged probabilities are exact. C85_still_none is a witness that the documentation of add_noise (\"must be set for all edges\") does not say what the code does."},
  {"property": "C86", "status": "proved", "theorems": ["Verif.Props.Single.C86_program", "Verif.Props.Single.C86_program_int32", "Verif.Props.Single.C86_same", "Verif.Props.Single.C86_lost"], "note": "For the graphs C49 leaves out as well. C86_lost is a witness that nothing better can be said: two links together have weight -8 and explain that there are no events, the answer is the empty set with weight 0. Questions with correlations and matched pairs are as in C69."},
  {"property": "C87", "status": "proved", "theorems": ["Verif.Props.World.C87_program", "Verif.Props.World.C87_program_int32", "Verif.Props.World.C87_seed", "Verif.Props.World.C87_determined", "Verif.Props.World.C87_apart"], "note": "The generator is abstract: std::mt19937 and std::uniform_real_distribution belong to the standard library. Objects are addressed by number; a constructor that raises leaves the old object in place. Check matrices and models as in C80, C81 and C82."},
  {"property": "C88", "status": "proved", "theorems": ["Verif.Props.Laws.C88_program", "Verif.Props.Laws.C88_program_int32", "Verif.Props.Laws.C88_easier", "Verif.Props.Laws.C88_alike", "Verif.Props.Laws.C88_scaled", "Verif.Props.Laws.C88_flipped", "Verif.Props.Laws.C88_triangle", "Verif.Props.Laws.C88_parts"], "note": "C88_program contains the laws for all reports in a run (TwoLaws, ThreeLaws); the others are the single laws for weights that are least up to a slack. Networks with fewer than 2^29 links, since otherwise sums of integers may be rounded. Networks as in C69 (those of C49 with profitable combinations of boundary edges are left out)."},
  {"property": "C89", "status": "partial", "theorems": ["Verif.Props.Agree.C89_agree_partial", "Verif.Props.Agree.C89_agree_int32_partial", "Verif.Props.Agree.C89_wide_partial", "Verif.Props.AgreeProgram.C89_wide_program_partial", "Verif.Props.AgreeProgram.C89_wide_program_int32_partial", "Verif.Props.Agree.C89_statement_false"], "note": "The code violates the full statement: on a square of four edges with equal weights decode predicts the fault ids of one way round and decode_to_edges_array lists the other (C89_statement_false). Proved: agreement in programs when all cheap explanations have the same fault ids, and agreement always with more than 64 observables, in sessions of calls on one decoder and in programs (the two calls with only questions and looks between them)."},
  {"property": "C90", "status": "proved", "theorems": ["Verif.Props.Solvable.C90_program", "Verif.Props.Solvable.C90_program_int32", "Verif.Props.Solvable.C90_solvable", "Verif.Props.Solvable.C90_reach", "Verif.Props.Solvable.C90_weights"], "note": "Questions with correlations only for objects that can answer them. Graphs as in C69 (those of C49 with profitable combinations of boundary edges are left out)."},
  {"property": "C91", "status": "proved", "theorems": ["Verif.Props.Trace.C91_program", "Verif.Props.Trace.C91_program_int32", "Verif.Props.Trace.C91_again", "Verif.Props.Trace.C91_again_int32", "Verif.Props.Trace.C91_weights", "Verif.Props.Trace.C91_rows", "Verif.Props.Trace.C91_rows_int32", "Verif.Props.Trace.C91_made", "Verif.Props.Trace.C91_made_int32", "Verif.Props.Trace.C91_made_rows", "Verif.Props.Trace.C91_made_rows_int32", "Verif.Props.TraceWorld.C91_world", "Verif.Props.TraceWorld.C91_world_int32"], "note": "Conditions as in C69 (ProperProgram); the _int32 versions are for the 32-bit field of the code (small networks, see C61). C91_weights has no condition. C91_made and C91_made_rows are for objects made from check matrices and detector error models (as in C87); C91_world is for programs with several objects and one random source. When decode_batch raises is said by C69 and C90; C91_rows then only says that it has raised."},
  {"property": "C92", "status": "proved", "theorems": ["Verif.Props.Sum.C92_program", "Verif.Props.Sum.C92_program_int32"], "note": "Programs as in C87 and C88, without correlations; fewer than 2^29 edges. Networks without negative weights, or in which all links are shown in different ways and none is a loop. Otherwise it is false in general: edges from a node to itself, or inside the boundary, are not listed but counted (see C41)."},
  {"property": "C93", "status": "proved", "theorems": ["Verif.Props.PairSum.C93_program", "Verif.Props.PairSum.C93_program_int32"], "note": "Programs as in C87 and C88, without correlations; fewer than 2^29 edges. With negative weights no pairs are returned (C72)."},
  {"property": "C94", "status": "proved", "theorems": ["Verif.Props.Below.C94_program", "Verif.Props.Below.C94_program_int32"], "note": "Programs as in C87, without correlations. Loops of samples that are decoded with decode_batch: C85."},
  {"property": "C95", "status": "proved", "theorems": ["Verif.Props.Clear.C95_program", "Verif.Props.Clear.C95_program_int32"], "note": "Programs as in C87, without correlations; predictions as in C94."},
  {"property": "C96", "status": "proved", "theorems": ["Verif.Props.Apart.C96_program", "Verif.Props.Apart.C96_program_int32"], "note": "Programs as in C87, without correlations; predictions as in C94. The weights of separate parts: C88."},
  {"property": "C97", "status": "proved", "theorems": ["Verif.Props.Only.C97_program", "Verif.Props.Only.C97_program_int32"], "note": "Programs as in C87, without correlations; for the weight fewer than 2^29 edges, as in C88. If several sets of edges are equally good, decode and decode_to_edges_array may differ (C89)."},
  {"property": "C98", "status": "proved", "theorems": ["Verif.Props.Heavy.C98_program", "Verif.Props.Heavy.C98_program_int32"], "note": "Programs as in C87, without correlations; predictions as in C94, weights as in C88."},
  {"property": "C99", "status": "proved", "theorems": ["Verif.Props.Steady.C99_program", "Verif.Props.Steady.C99_program_int32"], "note": "Programs as in C87, without correlations; replies as in C97. Weights are rationals (doubles are)."}
]}
