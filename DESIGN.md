# Formal model of PyMatching (sparse blossom) in Lean 4

Subject: the C++/Python sources in `/repo` (read as text; never built or run).
Everything below is about the Lean model in `lean/Verif/`.  The tie to the code is the
`file:line` citation on each model definition.

## 1. Trusted base

* The Lean 4.33.0 kernel, and the three standard axioms `propext`, `Classical.choice`,
  `Quot.sound`.  No property theorem uses any other axiom (see section 5 for the check).
* The reading of the C++/Python code that is expressed by the model definitions.  Each definition
  cites the lines it models and says where it is simplified.
* Arithmetic: `size_t`/`int64` quantities that the code never wraps are `Nat`/`Int`.  The places
  where wrap-around matters (cyclic times, bucket index, observable masks, bit packing) are
  modelled with explicit modulus or `BitVec`.
* Floating point: `double` weights and probabilities are modelled by real or rational numbers.
  Rounding error of IEEE arithmetic is modelled for the conversion of weights to integers and back (C65, section 3k), and for the weights of a detector error
  model (C70, section 3n; the accuracy of `std::exp` and `std::log` is a hypothesis there).  So is that of the probabilities of correlated models (C82, section 3u).  It is *not* modelled elsewhere (probabilities of merged edges, other loaders).
* Pointers: objects are identified by indices or identifiers; dereferencing null and out of range
  indexing are separate outcomes (`none` / `.ub`), never silently totalised.
* Not modelled: stim's file parsers, pybind11/numpy/scipy conversions, SVG drawing,
  the random number generator's distribution (it is an oracle), performance.

## 2. Layout

* `Verif/<Area>.lean`       model definitions of one area of the code, with citations, and the
                            helper lemmas about them.
* `Verif/Spec/<Area>.lean`  small specs, written without reference to the model helpers.
* `Verif/Props/<Area>.lean` the property theorems and their non-vacuity examples.

## 3. Plan per property

| id | what is modelled | how it is proved |
|----|------------------|------------------|
| C01 | 33 buckets of (time, payload) lists, 64-bit clock, bucket index = bit width of the xor of the low 32 bits | invariant (each event is in the bucket its widened time dictates) preserved by every operation; refinement to a multiset with `min` |
| C02 | cyclic comparison and widening on 32-bit values | arithmetic modulo 2^32 (`omega`) |
| C03 | same model as C01 | the multiset of all buckets changes exactly by the operation |
| C04 | `to_vector` which reads buckets 0..31 only | counterexample by evaluation + partial theorem for states with empty bucket 32 |
| C05 | tracker (desired, queued, flags) together with an abstract queue (multiset of owner/time), any interleaving | inductive invariant; delivery theorem by induction on the number of queued events |
| C06 | tracker `dequeue_decision` | case analysis |
| C07 | `Varying` as packed integer | shift/mask arithmetic on `Int` |
| C08 | intercept computations | same, with division rounding made explicit |
| C09 | arena as allocated list and free list | invariant by induction over operations |
| C10 | compressed edges | algebra of xor on `Nat`/`BitVec 64` |
| C11 | mask <-> vector loops, `int` shift semantics | bit extensionality; counterexample for index >= 31 |
| C12 | reweight / undo on adjacency lists | induction over the list of reweights |
| C13, C15 | `add_edge` / `add_boundary_edge` | invariant by induction over insertions |
| C14 | edge sets as finsets, weights in Z | symmetric difference algebra |
| C16-C18 | `UserGraph` as list of edges and per-node neighbour lists | invariant by induction; counterexample for C18 |
| C19 | `round` over rationals/reals | order/rounding lemmas |
| C20 | `merge_weights` over the reals | log/exp identities |
| C21, C22 | iteration over flattened DEM instructions | fold invariants |
| C23 | loader loops | fold characterisation |
| C24 | marker toggling on search graph | parity invariant of toggles |
| C25, C26 | search flooder with abstract priority queue | Dijkstra invariant; UB as explicit outcome |
| C27, C28 | alternating trees as pointers between nodes, with the arena (`Verif/Blossom/Model.lean`) | effect of each operation on the lists of ancestors; see section 3a |
| C29, C30 | regions as pointers with nested blossom cycles | induction on the number of regions; rotation of cycles; section 3a |
| C31 | potentials of the regions at the nodes | weak LP duality by level sets; section 3a |
| C32 | all calls of the decoder on one state, in any sequence | forward simulation with renamings, see 3c |
| C33 | decode loop state (nodes, queue, clock); histories of an object (3j) | counterexample, simulation |
| C34 | packing loops | bit arithmetic |
| C35 | user graph to matching graph conversion | fold characterisation |
| C36 | `add_noise` with oracle coin flips | parity fold |
| C37 | index map | arithmetic |
| C38 | match edges to arrays / dict | list induction |
| C39, C40 | node-level flooder state | part of the invariant of section 3a; list induction |
| C41 | the weight computations of both decode paths | tight walks of the matched pairs; section 3a |
| C42, C43 | API wrapper state machine | invariant by induction, counterexample |
| C44 | CLI loops | list induction |
| C45 | export/import | list induction |
| C46 | flooder and matcher | tight walks of the matched pairs; section 3a |
| C48 | conversion of the user graph | rounding bound per edge, summed |
| C49 | conversion of the user graph followed by decoding | edges of the decoding graph are edges of the user; exchange argument for boundary edges; C46 |
| C50 | flooder and matcher | lexicographic measure per round, section 3b |
| C47 | the `all_edges_have_error_probabilities` flag of `UserGraph` | invariant by induction over calls |
| C51 | both graphs with weight memories, rules, two passes, undo | second pass = one pass on the graph with changed weights; undo log; section 3a |
| C52 | same as C51, with edges of negative weight | counterexample; without rules for negative edges it follows from C51 |
| C53 | loading a detector error model with correlations (C22), conversion of both graphs and their rules, two-pass decoding (C51) | composition: edges of the loaded graph and of the decoding graph correspond one to one (no boundary nodes); section 3a |
| C54 | a `UserGraph` with its cached decoder: modifications, rebuilding, `decode`, `decode_batch`, `decode_to_edges_array`, matched pairs, path queries, in any order | invariant of the object over all histories on top of C32; section 3d |
| C55 | `decode_batch` on the actual decoder | composition of C32, C34 and C54 |
| C56 | loading a detector error model (C21), conversion (C35, C48), decoding (C46, C49) | probability of a set of edges is a product over edges; its logarithm is the negative weight up to a constant; section 3e |
| C57 | `main_predict` and `main_count_mistakes` on the actual decoder (C44 takes the decoder as a parameter), `pm::main`'s handling of exceptions | simulation between the tool's decoder and `decode` on a new object (C32, C54), shot by shot; section 3f |
| C58 | an object with its whole history (C54), asked for predictions, batches or edges | C54 reduces the answer to that of a new object; C49 says what that is; section 3f |
| C59 | decoding to matched detection events, on one object with any history | C38 gives pairs joined by walks whose weights add up to the least; exchange argument: a lighter explanation of one pair would give a lighter explanation of all events; lifted to the user's edges as in C49; section 3f |
| C60 | `get_nodes_on_shortest_path_from_source` on one object with any history | C25 on the search graph; the search graph's edges are the user's edges (`Origin`), weights in absolute value; section 3f |

## 3a. Flooder and matcher

`Verif/Blossom/Model.lean` models `graph_flooder`, `graph_fill_region`, `detector_node`, `alternating_tree` and `mwpm` function by
function.  State: detector nodes, regions and alternating tree nodes in maps indexed by numbers, the two arenas, and the
event queue with all trackers (`Verif.Tracker`, 32-bit times).  The proof idea:

* *Chains.*  `ch r` lists a region and the blossoms around it.  Following blossom parents ends, since `ch r` is a finite list.
  Same for alternating trees.  Each operation changes the lists in a simple way (wrap: append; unwrap: drop the last;
  re-root: rotate).
* *Potentials.*  `p R n` is 0 for a node outside region `R`, the radius of `R` for a node in a blossom child of `R`, and the
  radius minus the radius of arrival for a node that `R` reached itself.  `D u v = sum over R of |p R u - p R v|` is a
  pseudo-metric.  No discrete event (arrival, leaving, blossom creation, blossom shattering, change of growth) changes `D`.
  Only the passing of time does, by the slopes of the two top regions.
* *Feasibility.*  `D u v <= weight` for every edge; the boundary is a vertex with all potentials 0; all potentials are
  non-negative.
* *Schedule.*  Every edge on which a collision lies ahead has a wake-up wish at or before the collision at one of its ends;
  every shrinking region has a wish at exactly the time when its outermost node leaves.  So time never passes a collision.
* *Tight walks.*  Every node is joined to its source detection event, and every compressed edge in use (matches, alternating
  trees, blossom cycles) joins its two detection events, by a walk of weight exactly `D` and with exactly the stored observables.
* *Parity.*  All weights are even, hence tightly joined nodes have radii of the same parity and the code's `>> 1` is exact.
* *End.*  Without alternating trees all top regions are matched; extraction yields pairs whose tight walks have total weight
  equal to the sum of all radii.  Any edge set with the same syndrome weighs at least that much, since each region contains an odd
  number of detection events.

Preconditions: no parallel edges or self-loops, boundary edge first, both ends agree (all guaranteed by C13/C16/C35 for graphs built
through the user API), even weights below 2^31, distinct detection events.  Every call of the modelled entry points is shown to end (C50)
without undefined behaviour, with the right answer.

**Any number of observables, and decoding to edges.**  `Blossom/Wide.lean` models `decode_detection_events` for any number of observables (with
the caller's buffer and weight variable) and `decode_detection_events_to_edges`; both run the searches of the search flooder for all match
edges.  `Blossom/Twin.lean` shows that the search graph has the same slots as the matching graph.  `Blossom/Collect.lean` adds up the shortest
paths: their edges of odd multiplicity form a correction of minimum weight, since their total weight is the weight of the matching.
`Props/Edges.lean` has the theorems for whole calls, from any earlier use of the decoder (C24, C25, C41, C46, C50).  `Props/UserEdges.lean` carries them over
to the graph as the user entered it (`Blossom/UserWide.lean`: `to_mwpm` with search graph).

**Correlations.**  `Blossom/Correlated.lean` models the storing and converting of implied weights and the two passes of correlated decoding; the weights
of both graphs are memories of cells `(node, slot)` as in `Reweight.lean`, and the graph that a pass sees is the fixed graph with these weights filled in.
Proof of C51: (1) both graphs have the same neighbour lists and weights, hence the same converted rules; (2) the rules applied for the edges of the
first pass change cell `(u, k)` as a function of the two ends of its edge (C12); (3) filling in such weights gives the graph that the insertions with
changed weights build, so the theorems about one pass apply to the second; (4) the undo log restores the memories (C12); the second pass cannot raise since
the first has not (`Explains` does not depend on weights).  Condition: no rule changes an edge of negative weight (the code refuses implied weights of the
other sign, but accepts 0; then `negative_weight_sum` is no longer right while the weights are changed, C52).  Results: `Props/Correlated.lean`; lemmas: `Blossom/Rewrite.lean`,
`Blossom/Conditional.lean`.

**A detector error model, end to end (C53).**  The graph loaded with correlations is well-formed and has no boundary nodes, so `Origin` is a
bijection between inserted edges and edges of the graph; by C22 the implied weights of edge i for edge j are the log-likelihood ratio of
min(1/2, joint / marginal), never negative and for existing edges, and no edge has negative weight; so the rules convert (unless the model has a component
that names one detector twice, which gives a self-loop) and C51 applies.  The statement mentions only the errors of the model, the edges of the graph
and the detection events.  `C53_self_loop_rejected` shows the exception for every model with such a component next to another one.  Results: `Props/DemCorr.lean`.

Where the results are: `Props/Decode.lean` (C46, C50, pairs, sequences of shots), `Props/Edges.lean` (edges, any number of observables), `Props/EndToEnd.lean` (the user's own graph), `Props/Trees.lean`
(C27, C28), `Props/Dynamics.lean` (C29, C30, C31, C39, C40).  The last one speaks about *every state between two rounds of every decode* through its own
small vocabulary (`Nest`, `Reach`, `Covered`, `Meets`, `Within`, ...).  `Spec/Reopen.lean` says what reopening a blossom inside a tree must achieve.

`become_root` does not update the pointer of the inner region to its tree node; nothing reads it afterwards, so it is not part of C27.

## 3b. Termination

The loop has no bound in the code.  Every round lowers, lexicographically:

1. the number of alternating trees (roots of the tree nodes);
2. the number of detection events that are not in a growing top region;
3. the number of live regions (shattering and implosion frees one; the cases that create regions lower 1 or 2);
4. the sum over graph nodes of: 0 in a growing region, 1 outside any region or in a frozen one, 2 in a shrinking one (a node is
   reached only by a growing region and left only by a shrinking one);
5. the number of nodes whose wish differs from the time of their next collision (a stale wake-up recomputes the wish);
6. the number of pending queue entries with repetitions allowed for (silent deliveries, `Verif.TrackerWork`).

1-3 are read off the matcher's operations (each specification gets the extra conclusion `Prog`), 4 off arrivals and departures.

## 3c. Reuse of a decoder (C32)

A decoder that has been used keeps its allocated regions and tree nodes and hands them out again in another order, and trackers of
nodes keep stale times.  C32 says that none of this is observable.  Proof by forward simulation of the run on a fresh decoder by the
run on a used one: two growing injective renamings (regions, tree nodes) from the numbers handed out in the fresh run to those of the
used run (`Blossom/Rename.lean`).

* Related states: nodes, regions, matches and tree nodes agree up to renaming, also dead ones; the free list of the used arena is an
  untouched old part followed by the renamed free list of the fresh one; trackers agree except for times whose flag is off; the buckets
  of the queue agree entry by entry.
* Every function preserves the relation (`RelRes`, one lemma per function of `Blossom/Model.lean`).
* Visits of descendants are bounded by the number of allocated objects, which is larger in the used run.  The relation carries an
  acyclicity condition for children of regions, so that the bound does not matter; for alternating trees the existing forest invariants
  of the fresh run are used.
* The completion theorems for the fresh run (`runLoop_spec`, `matching_spec`) then transfer.

Conclusion: mask, weight, the list of match edges with its order, and the exception are the same, for every sequence of earlier shots;
then the same for decoding to edges, with more than 64 observables, and with correlations (`Props/Shots.lean`).

The search flooder keeps `distance_from_source` and `target_type` of earlier searches; `SearchReuse.lean` shows that a search reads the
distance of a node only after setting it, so searches return the same edges.

## 3d. The whole object (C54, C55)

`Verif/Object.lean` puts together the user's graph (`UserGraph.lean`), the conversion, the decoder with its mutable state, and the cache
(`get_mwpm`, `get_mwpm_with_search_graph`): an object, and its methods that modify the graph or ask a question.  A history is any sequence
of modifications and questions.  C54: every answer is the one that a new object gives after the same modifications, with no question
asked before.  Proof: invariant of the object (if the flag `_mwpm_needs_updating` is off, the cache is what would be built now, and its
state is at rest); modifications do not read the flag; questions answered by a decoder without search graph do not touch it.

Restrictions: `ensure_num_fault_ids` must not raise the number of fault ids between a question and the next other modification (C43 is
false there); the fault ids are covered (C18); detection events are nodes (C33); path queries that are undefined on a new object are
left out (C26); correlations are asked for only if no weight is negative (C51).

C55: the rows of `decode_batch` are the answers of `decode` for the rows, for all four combinations of packing.

## 3e. Most likely errors (C56)

Specification: the errors of the model happen independently, so a set `F` of errors has probability `prod (p or 1 - p)`; the detectors it
flips are those named an odd number of times by errors in `F`; the edges it uses are those to which an odd number of errors in `F` belong.
The likelihood of a set of edges is the sum of the probabilities of all `F` that use exactly these edges.  Restriction: every error
with non-zero probability is one component with one or two detectors (no suggested decompositions: there the edges are not independent, and
the decoder does not promise the most likely answer).

Proof: adding one error at a time, the likelihood is a product over edges of `odd` or `1 - odd` (C20: `odd` is the probability stored in the
edge); the weight `log((1 - odd) / odd)` makes its logarithm a constant minus the weight of the set; C48 bounds the rounding; C49 gives the
least rounded weight.

## 3f. The command line tools (C57), best answers at any time (C58)

C57 models the loops of `namespaced_main.cc` with the decoder of `Verif/Object.lean` in place of a parameter: the buffer has
`mwpm.flooder.graph.num_observables` entries and is reset after every shot; the decoder keeps its state from shot to shot; an exception ends
the tool with `EXIT_FAILURE`, and what `predict` has written by then stays written, while `count_mistakes` has printed nothing.  The
specification compares with `decode` on a new object for every shot.  File formats are stim's and not modelled: the input is the list of
detection events per shot, and the recorded observables.  `count_mistakes` uses the 64-bit call, `decode` the call with a buffer: lemma that
both end alike and the bits of the mask are the entries of the buffer (at most 64 observables; for more see C44).

C58 has no new model.  It says for every question in every history, in terms of the edges of the graph at that time, what the answer means.

C59 and C60 have no new model either.  C59: every pair of `decode_to_matched_detection_events_array` is joined by a best explanation of this pair
alone, and these add up to a best explanation of all events; the call raises only if some weight is negative or nothing explains the events.  C60:
the nodes of the returned path are consecutive ends of edges of the user's graph, and no other path has less (rounded, absolute) weight.

## 3g. The 32-bit wrapped radius (C61)

`DetectorNode::wrapped_radius_cached` and `compute_wrapped_radius()` are `int32_t` (detector_node.h:54, 98; detector_node.cc:23-34), although radii
and `radius_of_arrival` are 64-bit.  Discretised weights reach `2^25 - 2`, so a region that has crossed 65 such edges has a radius above `2^31`, and the cached value of the next node is
too large by `2^32`.  Up to C60 the model kept this value as an unbounded integer.  What changes:

* Every definition that depends on `compute_wrapped_radius` takes an argument `W : Width`: `int32` (the code) or `unbounded`.  The theorems about the flooder and the matcher are
  proved for `unbounded`.
* `Blossom/Narrow.lean`: call a matching graph *short* if any two connected detectors are joined by a walk of total weight below `2^31`.  In every state that the
  (unbounded) decoder reaches on a short graph, all cached values fit in 32 bits: for a node of a top-level region the value is the negated `radius_of_arrival`, which is at most
  the distance to the event that reached it; for a node inside a blossom it is a sum of radii, and less than the distance to a node of another child of the blossom.
* Storing a wrapped value commutes with every operation that does not read it, so a step of the `int32` decoder is the truncation of the step of the unbounded one; as the
  result of the latter fits, both steps are equal.  By induction whole runs are equal, and with them the answers of every function that decodes (`Object.ask`, `Object.history`, the
  command line tools).  Hence all theorems hold for the code on short graphs; sufficient: any two connected detectors are at most 64 edges apart.
* C61 states this with the necessary restriction, and `C61_hangs` shows that without it `decode` does not end: a chain of 66 detectors whose edges have the largest weight, with a
  boundary edge at one end and a detection event at the other.  C50 (every decode ends) becomes partial.
* `Props/Width32.lean` restates the theorems about decoding for `int32` (same text, with a local instance, plus `Short`); `Props/Narrow.lean` those about objects and the command line tools,
  plus `Near` for the user's graph.  The theorems without `_int32` remain as statements about the algorithm on all graphs.  The quantifiers in `properties.jsonl` name the restriction.
* Sufficient conditions that a user can check: `Narrow.C61_near` (at most 64 edges between connected detectors, or at most 65 nodes), `Narrow.C61_near_integers` (integer weights, largest
  absolute weight times number of nodes at most `2^30`).

## 3h. Decoding a check matrix (C62)

What a user of `Matching(H, weights, faults_matrix=F, repetitions=T)` relies on, end to end: `decode(z)` returns `F c` for a set `c` of errors that explains `z` and is of least weight.
The theorems above speak of the edges that are left after merging; C62 speaks of the columns of `H`.

* Specification (`Props/MatrixDecode.lean`): a `History` is a set of pairs (repetition, column) and a set of pairs (repetition, row): the errors and the wrong measurements (none in
  the last repetition).  `measured t r` counts the errors up to repetition `t` that flip row `r`, plus one if the measurement is wrong; a detection event is a change of the
  measured value between consecutive repetitions.  This is the recipe of the documentation of `decode` (matching.py:312-336).
* `Blossom/Inserted.lean`: what edges inserted with merge strategy "smallest-weight" stand for.  Every kept edge is one of the inserted ones with all its data; for every inserted
  one an edge with the same ends and no larger weight is kept.  So sets of kept edges are sets of inserted edges with the same parities and weight, and a set of inserted edges can be
  replaced by a set of kept edges with the same parities and no larger weight, if no two inserted edges with the same ends have a negative sum of weights (`sum_pairs`, as in C49).
* The rest is C23 (which calls the matrix stands for), C58 (what an object answers), C37 (syndrome arrays), C61 (32-bit version).
* Condition: parallel columns must not have a negative sum of weights and zero columns no negative weight (nonnegative weights suffice).  Without it the claim is false
  (a negative zero column is never reported): `C62_condition_needed`.
* Restrictions beside those of C58: weights of absolute value at most `2^24 - 1` (so that the conversion is known to succeed, `Blossom/Buildable.lean`); merge strategy
  "smallest-weight", the default of `load_from_check_matrix`.
* `C62_near` gives a condition on the matrix under which the 32-bit version applies (integer weights; `M (rows * repetitions + 1) ≤ 2^30`).

## 3i. Simulation round trip and code distance (C63, C64)

What a user relies on when simulating a code: sample errors, decode their syndrome, compare.

* C63: whatever `add_noise` samples, `decode` of the sampled syndrome does not raise; the weight found is at most that of the flipped edges; sampled noise and prediction differ by the
  fault ids of a set of edges that flips no detector.  Proof: C36 (the syndrome is that of the flipped edges), C37 (arrays to detection events), C58 (best explanation), and the symmetric
  difference of two explanations.
* C64: if every undetected set of edges that flips some fault id has weight at least `d`, then every set of edges of weight less than `d / 2` is corrected: `decode` of its syndrome returns
  its fault ids.  The same for check matrices with repetitions (C62), and with unit weights in terms of the number of errors.  Nonnegative weights are assumed.  Proof: the symmetric
  difference of the error and the correction has weight less than `d`.

## 3j. After an invalid detection event (C33)

`Verif/Blossom/Invalid.lean`, `Verif/Props/Invalid.lean`.  Python users reach an invalid event through `decode_batch` with bit-packed shots: padding bits beyond
the last node are accepted by the shape check and read as events.  What is then left behind is determined exactly.

* The starting phase up to the exception: the events before the invalid one that are not boundary nodes and not pre-flipped are started, the marks of the
  remaining pre-flipped nodes stay.  Marks are overwritten at the next start (`MS.unmark`), so they do not matter.
* Nothing started: the exception leaves no trace (`C33_history_partial`: histories with such mishaps, at any place, answer everything else as new objects
  do; negative weights allowed).
* A detector with an edge started: its wake-up call stays in the queue.  `C33_stuck`: every later question that needs the same decoder raises, for ever, and
  changes nothing; a modification of the graph (also `set_boundary_nodes` with the old set) throws the decoder away, and all is well again.

## 3k. Double precision (C65)

`Verif/Double.lean` (IEEE 754 binary64, round to nearest even, with subnormal numbers, overflow to infinity and NaN; signed zeros are not told apart),
`Verif/ConvertD.lean` (the conversion and the scaling back in that arithmetic), `Verif/Props/Double.lean`.

* Modelled in doubles: the quotient `(2^24-1)/max_abs_weight`, the product `weight * normalising_constant`, `round`, the cast to `int32_t` (undefined when
  out of range), the doubling, the constant `2c` and `2c/2`, the implied weights, the sign test of `get_edge_weight_normalising_constant`, the cast of the total
  weight to `double` and its division by the constant.
* Plan: let `z(w) = round(fl(w*c))`.  The decoder built in doubles is the decoder that exact arithmetic builds for the graph with the integer weights `z(w)`.
  So everything proved for exact arithmetic holds for that graph.  Rounding is monotone and odd, so signs and order of weights survive; the error of `z(w)`
  against the exact `w*c` is at most `1/2 + 2^-27`.  Sums give: the answer is within `(|C|+|C'|) (1/2 + 2^-27)` units of every explanation, and the weight
  returned is within about half a unit per edge of the true weight, exact for integer weights.
* Needed: the largest absolute weight is at least `2^-998`, or all weights are integers.  Below about `2^-1000` the quotient overflows: the product is infinite and
  the cast is undefined (a witness is a theorem), or `2c` overflows and every solution is reported to have weight 0.
* Result: `C65_weights`, `C65_builds`, `C65_as_integers` (any question), `C65_answers`, `C65_answers_int32`, `C65_near`; negative: `C65_tiny_undefined`, `C65_tiny_weight`.
  The questions are to a new object; that an object answers as a new one is C54 (in exact arithmetic; the cache does not touch weights).
* Left out: `log`, `exp` and the sums in `merge_weights`, in loading detector error models, and in Python (their results are taken as given weights).

## 3l. The Python front-end for check matrices (C66, C67)

`Verif/Python.lean` (`Matching.__init__`, `load_from_check_matrix`, `decode`: matching.py:141-180, 202-216, 339-346, 1163-1238), `Verif/Props/Python.lean`.

* Modelled: the aliases (`H`, `spacelike_weights`, `measurement_error_probability`) and their conflicts, the defaults, numbers that stand for constant arrays, arrays,
  everything else; matrices as scipy stores them (per column a list of row and value), `eliminate_zeros`, the cast of the values to `uint8`; the conversion of the syndrome
  to detection events; the choice of returning the weight.
* Trusted: `csc_matrix(dense)` lists the non-zero entries of each column in increasing row order; casting an integer to `uint8` reduces it modulo 256; numpy turns a number into a
  zero-dimensional array, which pybind11's `unchecked<1>` refuses.
* Plan: (1) a call whose arguments stand for a `Problem` (as in C62) gives the loader arguments that represent it, so that C23 and C62 to C64 apply to Python calls; calls with
  conflicting or missing arguments raise.  (2) The best sets of edges of C65 are translated to histories, now with true weights instead of rounded integers: the chain
  Python call, loader, conversion in doubles, decoder with 32-bit radius, scaling back, Python result is then one theorem.  (3) For unit weights: `Matching(H).decode(z)` has the
  fewest ones of all solutions of `H x = z`.
* C67: "a matrix with an entry other than 0 and 1 is rejected" is expected to be false (257 is 1 modulo 256); what holds is that an entry other than 0 and 1 modulo 256 is
  rejected.
* Result: `C66_arguments` (any such call gives the loader arguments of its problem), `C66_refused`, `C66_defined` (no read outside of the arrays, whatever the arguments),
  `C66_decode` and `C66_decode_int32` (the chain from the arguments to the returned array in double precision, the second one with the 32-bit radius), `C66_wrong_shape`,
  `C66_solution`, `C66_fewest` (default arguments: exactly the fewest ones, and an exception iff there is no solution).  C67: `C67_entries_partial`, `C67_statement_false`.
  A faults matrix with explicitly stored zeros is refused by the code (`eliminate_zeros` is only called on the check matrix), hence excluded in `Asks`.

## 3m. Sessions in Python, in double precision (C68, C69)

C65 is about new objects, C54 and C58 are about exact arithmetic.  `Verif/ObjectD.lean`: an object whose cached decoder was built in double precision and carries its normalising
constant (`user_graph.cc:217-226, 322-347`, `user_graph.pybind.cc:179-340`).  `Verif/Session.lean`: the Python methods `add_edge`, `add_boundary_edge`, `set_boundary_nodes`,
`ensure_num_fault_ids`, `decode`, `decode_batch`, `decode_to_edges_array` (matching.py:339-346, 451-460, 521-524, 745-756, 830-835, 1758, 1774) as statements of a program.

* C68: in any history of modifications and questions, in double precision and with the 32-bit radius, every question ends, its answer is that of a new object with the graph of
  that moment, and (without correlations) it is an explanation that no other beats by more than about half a step per edge.
  Plan: the cached decoder is that of the integer graph of C65 up to the constant; the invariant of C54 for the object with the integer graph carries over.
  Result: `DoubleHistory.C68_any_time`, `C68_any_time_int32`, for all histories that satisfy the conditions of C54 (`ProperD`).
* C69: what a program of Python statements builds.  The forms of `fault_ids` (nothing, -1, an integer, a set), the alias `qubit_id`, the default of the probability, the
  checks; a program whose edges have different ends builds the network of its statements, and `decode` answers for that network: stated for lists of links, without the data
  structures of the graph.  Expected to be false in one point: `add_boundary_edge` takes any keyword and ignores it, so that `add_boundary_edge(0, qubit_id=3)` adds an edge
  without fault id, whereas `add_edge(0, 1, qubit_id=3)` adds one with fault id 3.
  Result: `Session.C69_program`, `C69_program_int32`.  Not only programs whose edges have different ends: merging is covered, with the weight of the strategy "independent" a
  parameter.  The specification (`Net`, `Net.after`, `Right`) knows lists of links only.  `C69_boundary_qubit_id_dropped` is the point where it is false.
* Trusted: pybind11 refuses (`TypeError`) negative numbers for `size_t`, and elements that are not integers.

## 3n. Detector error models in double precision (C70)

C56 is about loaded weights that are real numbers.  In the code `std::log((1 - p) / p)` and `merge_weights` (user_graph.cc:29-37, 349-356) work with doubles, and the conversion
to integers does, too (C65).  `Verif/DemD.lean`: the two formulas with every operation rounded; `std::exp` and `std::log` are parameters.

* C70: load a model whose probabilities are doubles and whose errors have one or two detectors, then decode any number of times.  Every call ends; its answer stands for errors that
  explain the events, and no other errors are more likely by more than a factor that is stated: about half a step of the conversion for every edge used, and
  `(2 n - 1)` times the error `e` of the two formulas for an edge that `n` errors share.  The weight is the logarithm of the likelihood ratio up to the same terms.
  A separate theorem bounds `e` by `2^-40 + 711 h`, where `h` is the accuracy of `std::exp` and `std::log`, for probabilities between `2^-1022` and `1 - 2^-53`.
  Plan: the graph with double weights and the one with exact weights have the same edges, by induction over the insertions; `merge_weights` is 1-Lipschitz in both
  arguments, hence errors add up and do not grow; then C68 for the graph with double weights and C56 for the other.
  Result: `LikelihoodD.C70_most_likely`, `C70_most_likely_int32`, `Arithmetic.C70_arithmetic`, `C70_precise`, as planned.  The last two make the hypothesis `Precise` of the
  first two true for the formulas of the code.  One condition about the loaded weights remains (`NotTiny`): it can be checked on the loaded graph.
* Simplified: the stored probability of a merged edge is exact (it is not used for decoding).

## 3o. Looking at an object, and matched pairs, in sessions (C71, C72)

The statements of `Verif/Session.lean` get two more kinds: those that look at the object (`has_edge`, `has_boundary_edge`, `get_edge_data`, `get_boundary_edge_data`, `edges`,
`boundary`, `num_fault_ids`, `num_nodes`, `num_edges`, `num_detectors`, `__repr__`: matching.py:658-666, 853-940, 1786-1839; user_graph.pybind.cc:364-424), and
`decode_to_matched_dets_array`, `decode_to_matched_dets_dict` (matching.py:574-621; user_graph.pybind.cc:220-246, 341-363).  Links of the specification get a probability.

* C71: at any time in a program, what these report is what the statements before have built: the links in the order of their insertion with their fault ids, weight and
  probability, the numbers of nodes, detectors, edges and fault ids, the boundary.  They change nothing: with them left out, all other replies are the same.
  Plan: the invariant `Stands` of C69; `getEdge_iff` of C16.  To be noted: `edges()` shows -1 for a probability outside of [0, 1], `get_edge_data` shows it as it is.
  Result: `Session.C71_inspection`, `C71_harmless`, `C71_one_link`.
* C72: at any time in a program, in double precision, matched pairs are joined pair by pair by explanations that no other beats by more than about half a step per link, and
  together they cost what a cheap explanation of all events costs, up to the same terms.  The dictionary says the same as the array.  An exception means that a weight is negative,
  or that nothing explains the events, or that the array has the wrong shape.
  Plan: C59 for the graph with integer weights, scaled back as in C65.
  Result: `Session.C72_pairs`, `C72_pairs_int32`, `C72_same_pairs`; `Verif/Props/PairsD.lean` has the step from integers to doubles.

## 3p. Programs that start with a check matrix (C73, C74)

C69 starts with `Matching()`.  The usual program starts with `Matching(H, ...)`.  The models are there: `Verif/Python.lean` for the arguments, `Verif/CheckMatrix.lean` for
the loader, `Verif/Session.lean` for what follows (`load_from_check_matrix` replaces the graph by a new one, matching.py:1232-1238, so that a load in the middle of a program
starts a new program).

* C73: `Matching(H, ...)` with any of the merge strategies gives the network that one gets by placing the links of the columns, repetition by repetition, and then the
  time-like links; or it raises, if the strategy is "disallow" and two of them have the same ends.  Any proper program that follows gets right replies, in the sense of C69.
  Plan: `C66_arguments` for all strategies; `C23_load` gives the calls; `place_of` of C69 for each of them.
* C74: `Matching(H, ...)` with the default strategy, then any sequence of `decode`, `decode_batch` (packed or not) and looks, in double precision: each returned row tells the
  fault ids of errors that cause that syndrome, and no other errors are lighter by more than about half a step for each; the weights fit; exceptions only if nothing causes a
  syndrome, or the shape is wrong.  Plan: the invariant of C68 with the loaded graph fixed; `correct_of` of C66 for each row.

Result: `Verif/Props/MatrixSession.lean`.  `C73_program` needs at most two ones per column, as the loader does, and no fault id twice in a column of the faults matrix (scipy would
add them up).  `matrixNet` is the specification: the links of the columns placed one after the other (`Net.place` of C69).  In `C74_questions` the syndromes have one entry per row and
repetition; an array with one entry more, for the boundary node, is accepted by the code but not in the theorem.  `Reports` also says that `decode_to_edges_array` lists the ends of
the errors of a likely history (`Lists`).

## 3q. Programs that start with a detector error model (C75, C76)

C75 puts a detector error model in front of C69/C71/C72: `Matching.from_detector_error_model(model)` (correlations off), and then any proper Python program, with questions,
modifications and looks in any order.  Specification: `demNet` = the network that results from placing, one after the other and with the strategy `independent`, a link for each
component (with one or two detectors) of each error with p > 0, of weight `lg p` and probability p, starting from `numDets` nodes, `numObs` fault ids and no boundary nodes.
Conclusion: the placing never raises, and the program gets `Right` replies (the same relation as in C69).  The object carries the flag "loaded without correlations", which the
session proofs so far fixed to false; they are generalised to both values (the questions of sessions do not ask for correlations, so the flag plays no role for them).
Condition: no component lists an observable twice (the network keeps sets of fault ids).

C76 is C70 for Python sessions: after loading, any sequence of `decode`, `decode_batch` (packed or not), `decode_to_edges_array`, matched pairs, and looks.  Each reply stands
for errors of the model that explain the events, and that are most likely, up to the factor `slack`; `decode_to_edges_array` lists exactly the pairs of ends that an odd
number of those errors have; arrays of other shapes raise.  Here an observable may be listed twice.  How proved: `meaning` of C70 is split into a lemma about one set of edges,
which is then used for each row of a batch; the loop over the statements as in C74.

Result: `Verif/Props/DemSession.lean`: `C75_program`, `C76_questions` and their versions for 32 bits.  In C76, `LikelyErrors` is the notion of C70 (`Likely` with the factor `slack`), and
`Paired` says for the matched pairs: each event is in exactly one pair, each pair alone (or its one detector, if the other side is the boundary) is explained by most likely errors, and their weights add up to
that of most likely errors that explain all events.

## 3r. Programs that load graphs at any point (C77, C78)

C77: `load_from_networkx` and `load_from_rustworkx` (matching.py:1535-1570, 1627-1659) with all their arguments.  Modelled (`Verif/Programs.lean`): the attributes `fault_ids` (absent, an
integer, a set of integers, or something else), `qubit_id`, `weight`, `error_probability` of each edge, `is_boundary` of the nodes, `min_num_fault_ids`.  Not modelled: node
labels and attributes that are not numbers (`int(u)` of a string, weights that are not floats); the order of the edges is that of `graph.edges(data=True)`, whatever it is.  Specification
(`graphNet`): start with the nodes, the boundary and the number of fault ids; add the edges one after the other with the strategy "smallest-weight" (`Net.add` of C69);
an edge that is too heavy is skipped with a warning; an invalid node, fault id or attribute raises.  Theorem: loading gives an object that stands for this network, or raises if there is
none.  How proved: each edge is an `add_edge` statement of C69 (`build_of`).

C78: programs in which, between the statements of C69-C72, the variable is assigned a new object or loads a new graph, from any source (networkx/rustworkx graph, check matrix,
detector error model).  Specification (`Went`): a load that succeeds replaces the network, and nothing of the old one (graph, cached decoder) influences the replies from then on; a load that
raises leaves the object as it was, with its graph and its answers.  How proved: the invariant `Stands` of C69 holds for loaded objects (C73, C75, C77); the step of
`program_core` is made a lemma of its own, and the new induction uses it.

Result: `Verif/Props/Programs.lean`.  `C77_simple` describes the network of a graph without parallel edges directly; for multigraphs (which `isinstance(graph, nx.Graph)` accepts, although a
comment in the code says that there are no parallel edges) `graphNet` says what happens.  `Proper` of C78 has a parameter for the condition that networks are small when they are asked
about, which only the version for 32 bits needs.

## 3s. Correlations on any graph, at any time, in double precision (C79, C80)

C51 says what decoding with correlations returns in terms of the inserted edges of one decoder, C53 and C58 say it for graphs just loaded from a detector error model, over the reals.  Missing: graphs
that were loaded and then modified (edges added, replaced, boundary nodes set), graphs that were never loaded (no implied weights at all), and double precision.

* C79, exact arithmetic, any graph: `enable_correlations=True` gives an explanation of least weight for the weights of the second pass.  Specification (`Conditioned.options`): in the second pass an edge
  has the least of its own weight and the weights that the edges of a best explanation imply for it.  All boundary nodes and the virtual boundary are one end, so a weight
  implied for the boundary edge of a detector is for all its edges to the boundary.  Edges of a node to itself imply nothing.  If the graph was loaded without correlations, every such question raises.  Without
  implied weights the answer is what it is without correlations.  Conditions: no negative weights (C52), the decoder can be built.  How proved: C51, transferred to the edges of the user; since of
  several edges to the boundary only the lightest is kept, its second weight must be shown to be least as well.
* C80, the same in double precision and with the 32-bit radius, for every question of every history: the first explanation is one that no other beats by more than about half a step per edge,
  the second one is this for the weights of the second pass (exact rationals, before rounding).  How proved: rounding is monotone and odd, so the integer weights of the second pass are the
  rounded weights of the second pass; then the error analysis of C65 for these.

Not modelled: nothing new; the model is that of C51, C54 and C65.

Result: both proved as planned (`Props/Conditioned.lean`, `Props/ConditionedD.lean`).

## 3t. Programs with correlations (C81)

C69 to C78 are about programs that never say `enable_correlations=True`.  Plan: make it an argument of the statements `decode`, `decode_batch`, `decode_to_edges_array` and of loading a detector error model.

* Model: the statements of `Verif.Session` get the argument (matching.py:339-346, 451-460, 521-524), the source `dem` of `Verif.Programs` too (`Dem.loadCorr`, with exact probabilities; the
  logarithm is a parameter).  After loading without correlations such questions raise.
* Specification: a link of a network (C69) also has rules: weights that it implies for other links.  Adding a link gives it none, merging keeps them.  Rounding steps take the weights of the rules
  into account.  A question with correlations is right if the reply is a cheap explanation for the weights of a second pass, after a first pass (as in C80).  For models loaded with correlations:
  the network of the same model without, and for each link exactly one rule for each other link that shares an error with it, of the weight of the conditional probability, at most one half.
* What this changes: C69 and C71 to C78 then hold for programs with such statements, also about networks with rules.  C81 is the program that starts with a model loaded with correlations, and what the
  replies to questions with correlations are.
* Conditions at a question: those of C69; rules are for links that still exist, do not touch boundary nodes, are not loops, and have no opposite sign (otherwise the library refuses to build the decoder); for questions with
  correlations no link has negative weight (C52).
* How proved: the lemmas of C69 with rules kept in the links; a new lemma says when a decoder with rules can be built; C80 for the answers; for the loader the lemmas of C22, generalised to
  any ordered field and any functions for merging and for the logarithm.

Result: statements with correlations are in `Verif/Session.lean` and `Verif/Programs.lean`; `Right` and `Went` (C69, C78) cover them.  `Props/DemRules.lean` has the network of a model (`corrNet`),
`C81_program`, when a model is refused (`C81_refused`), and that a loaded network may be asked about with correlations (`C81_ready`).  Probabilities are exact; the logarithm and the merging of weights are
parameters.  The rules of a link are a set: their order has no effect.  Errors that have two components with the same detectors are excluded (C22).

## 3u. Models with correlations in double precision (C82)

C81 has exact probabilities.  In the code the joint probabilities are doubles (`bernoulli_xor`, user_graph.cc:22-24), and so is the conditional probability, their quotient (user_graph.cc:519-546).

* Model: the loader with correlations gets its arithmetic as an argument (`Dem.Arith`: how two probabilities are combined, and how they are divided); `Arith.exact` for the theorems so far,
  `DemD.rounded` with all operations rounded to 53 bits.
* C81 is then proved for any arithmetic: the network has rules with the numbers that this arithmetic gives.
* C82: with the rounded arithmetic, and with `std::log`, `std::exp` of a given accuracy (C70), the weight of each link is close to the log-likelihood ratio of the probability that an odd number
  of its errors happens, and the weight of each rule is close to that of the conditional probability.  Then the replies to questions with correlations are described by exact
  likelihoods: the first explanation is nearly best for the weights of the model, the second nearly best for the least of these and of the weights of conditional probabilities, and the bound
  is explicit.
* How proved: combining is monotone and does not increase relative errors (`x(1-p) + p(1-x)` with `p` at most one half), so relative errors add up over the errors that two links share; a relative
  error of a probability of at most one half is at most three times as large an absolute error of its weight.  Probabilities that are not zero are at least 2^-1000, so nothing underflows.

Result: `Props/RulesD.lean`: `C82_numbers` (weights of links and rules), `C82_range`, `C82_means` (what replies mean for exact probabilities), `C82_program`, `C82_program_int32`.  `Dem.Arith` is an
argument of the loader and of the programs of C78; C81 holds for any.  That no weight is negative stays a condition of `C82_ready`, because `Library` does not say that the logarithm is monotone.

## 3v. The command line tools in double precision (C83), and what is most likely with correlations (C84)

C57 says that the command line tools give what `decode` gives, in exact arithmetic.  C82 says what `decode` gives in double precision for a model that is loaded with correlations, C76
for one that is loaded without.  C83 puts these together.

*Model.*  `Verif/CliRunD.lean`: `runPredictD` and `runCountD`, as `runPredict` and `runCount` of `Verif/CliRun.lean`, but with the double precision loader (`Dem.loadCorr` with
`DemD.rounded`, or `Dem.load`) and the double precision conversion `ConvD.toMwpmD`.  The loops are the same: they use integers only.  An exception while the decoder is built is caught by
`main`, which returns failure.

*Specification.*  `Shown good bad shots records ok`: the records are `good` for the first shots; success means that all shots have a record; failure means that the next shot is `bad`.
`Tallied good bad ...`: there are `good` predictions for all shots, and the number printed is the number of those that are not what was recorded; or the tool fails, and then the
recorded observables end early or one of the shots is `bad`.

*Theorems.*
 - `C83_decode`: good is the row that the Python program `m.decode(syndrome, return_weight=True, enable_correlations=...)` returns on a new object, bad is that it raises.
 - `C83_correlated`: with correlations, for models as in C82, good means nearly best for the exact weights of the model, bad means that there is no explanation.
 - `C83_plain`: without correlations, for models as in C76, good means the observables that likely errors flip, bad means that no errors explain the shot.
 - `C83_same`: both tools make the same predictions: what `count_mistakes` prints can be computed from the output of `predict`.
 - `C83_refused`: a model that the loader refuses makes both tools fail without output.
 - `C83_decode`, `C83_correlated`, `C83_plain` also with the 32-bit radius of the compiled library (`_int32`).

*How.*  The decoder that `toMwpmD` builds is, but for the scale, the decoder of the graph with integer weights (`toMwpm_int`), so the loop lemmas of C57 apply to that graph; each answer on
a new object of that graph is a first answer of the double precision object (`ask_int`), about which `Session.single_up` and the lemmas of C82 and C76 speak.

C84 states C82 in terms of probabilities instead of weights.  *Specification.*  The likelihood of a set of links, for probabilities `q` of the links, is the product of `q` for the chosen links and of
`1 - q` for the others.  `Likely D q fires C`: `C` explains the events, and no other explanation `C'` is more likely than `C` by more than the factor `exp (D (|C| + |C'|))`.
*Theorem.*  Without correlations the answer is `Likely` for the probabilities of the links in the model.  With correlations it is `Likely` for the probabilities `q` where each link has the
greatest of its own probability and of its conditional probabilities, given the links of an explanation that is itself `Likely` for the probabilities of the model.  *How.*  The log of the
likelihood is a constant minus the sum of the ratios; the ratio is antitone in the probability, so the least ratio is that of the greatest probability.

Result: `Props/CliD.lean` and `Props/LikelyD.lean`; `C84_program`, `C84_program_int32` for programs, `C84_predict`, `C84_count` for the command line tools.

## 3w. Simulation in double precision (C85)

C63 is about one sample and one question, in exact arithmetic.  C85 is about programs that simulate: sampling noise, and decoding what was sampled, at any point of a Python
program, in double precision.

*Model.*  `Verif/Simulate.lean`: besides the statements of C69, a line of a program can be
 - `m.add_noise()`;
 - `noise, syndrome = m.add_noise(); m.decode(syndrome, return_weight=True, enable_correlations=...)`;
 - a loop that stores the syndromes of several samples as the rows of an array with one column per node and gives it to `m.decode_batch`.

The random numbers are arbitrary (one sequence per sample).  A write past the end of an array is undefined behaviour.

*Specification.*  The flipped links are those whose random number is below their probability.  `Sampled`: the noise tells the fault ids, the syndrome tells the detectors, of the flipped
links; boundary nodes get 0.  `add_noise` returns `None` exactly if some link was without a probability now or at an earlier moment (the flag in `UserGraph` is never set
again, which disagrees with the documentation: see section 4).  If there is a sample, decoding it does not raise (except questions with correlations where they are refused); the reply
tells the fault ids of nearly cheapest links, which therefore cost at most what the flipped links cost, up to rounding; and noise and prediction differ in the fault ids of a set of links
that flips no detector.

*Theorems.*
 - `C85_program`: any such program on a new object; `C85_model`, `C85_correlated`: on an object made from a detector error model without or with correlations.  All also with the 32-bit
   radius (`_int32`).
 - `C85_always`: a program that gives a probability with each link always gets samples.
 - `C85_corrected`: if all weights are nonnegative and the flipped links cost less than half of what it costs to change a fault id unseen (up to rounding), the prediction is the noise; `C85_corrected_loop`: the same
   for a loop.
 - `C85_failures`: in a loop, the number of shots with a wrong prediction is the number of samples where the difference is harmful.
 - `C85_still_none`: the witness for the disagreement.

*How.*  Induction over the program, as for C69 (`stmt_core`), with one more invariant about the flag; `noiseLoop_spec` for the sample; the difference of two explanations.

## 3x. Graphs with profitable combinations of boundary edges (C86)

C49 (and with it C58, C65, C68, C69) excludes graphs in which two edges from one detector to the boundary have a negative sum, or an edge between two boundary nodes is negative: there the
decoder is not minimum weight (`C49_statement_false`).  C86 says exactly what the decoder does for all graphs.

*Specification.*  A set of links is `Single` if it has no link inside the boundary, and at most one link from each detector to the boundary.  The answer is a single explanation
that no other single explanation beats by more than about half a step per link; not at all if all weights are integers.  `decode` raises only if nothing explains the events (not
even a set that is not single).

*Theorems.*  `C86_program`: programs as in C69, where questions without correlations for predictions, batches of predictions and edges may be about any network whose weights are in range
and whose fault ids are covered (`Sound`); `C86_program_int32`; `C86_same`: if there are no profitable combinations, single explanations are as cheap as all explanations.

*How.*  Of the edges from a detector to the boundary the conversion keeps one of least weight (`Origin.least`, `Origin.one`), and none inside the boundary (`Origin.kind`).  So what the decoder
finds is single, and a single set is not made heavier by `lower`.  The rest is as in C58, C65 and C69, which do not otherwise use the condition.

*Result.*  `Props/Single.lean`: `C86_program`, `C86_program_int32`, `C86_same` as planned, and `C86_lost`, a program in double precision where the answer has weight 0 and a set of two
links that explains the events has weight -8.  `EndToEnd.leave_sum` now asks for nonnegative sums only of links in the set, and `Answers.answer_new` is stated for any meaning of
"solution" that the matching on the converted graph has.  Questions with correlations and for matched pairs still need `Fine`.

## 3y. Several objects and one random source (C87)

C85 takes the random numbers of each sample as given, and is about one object.  In the code there is one global generator (`rand/rand_gen.cc`), shared by all objects, which `set_seed`, `randomize`
and `rand_float` change as well.

*Model* (`Verif/World.lean`).  A source is a type of states with `seed : BitVec 32 → State` and `between : State → ℚ → ℚ → ℚ × State`: `std::mt19937` and `std::uniform_real_distribution` are from the
standard library and stay abstract.  `add_noise` draws `rand_float(0, 1)` for one edge after the other from the current state.  A world has objects by name, and a state of the source.  Commands: make an
object (`Matching()`, from a check matrix, from a detector error model without or with correlations), a line of C85 on an object (without given random numbers), `set_seed(n)`, `randomize()`,
`rand_float(a, b)`.

*Specification.*  Networks by name, and a state.  A sample of a network with `E` links takes the next `E` numbers from the source, if `add_noise` does not return `None`; no other line takes any.

*Theorems* (`Props/World.lean`).  `C87_program`, `C87_program_int32`: every proper program over any number of objects ends without undefined behaviour, and each command gives what it should, where the
random numbers are those at the current position of the source.  `C87_apart`: commands on other objects that do not sample can be left out without any effect on an object or on
the random numbers.  `C87_seed`: after `set_seed(n)`, the results
of a program do not depend on the state of the source before.  `C87_determined`: equal networks at equal positions of the source get equal samples, whatever was asked before.

*How.*  The loop with a state equals the loop with given numbers, where number `i` is drawn after `i` steps; then `Simulate.line_core` for each line.

*Result.*  All proved.  `C87_program` contains that what an object stands for depends on the commands on this object only: `Next` changes one thing at a time.  In the trusted base: the generator of the
standard library is deterministic and has no state besides `mt19937`'s (the static `uniform_real_distribution` object keeps none), and pybind11 refuses a seed that does not fit into `unsigned`.

## 3z. Laws for the returned weight (C88)

Users test decoders by comparing related problems.  The returned weight should obey laws that do not mention how it is found: names and order do not matter, more links or a larger boundary never make
an answer heavier, and so on.  Each law follows from the fact that the weight is least, so that it is a consequence of C87 (and with it of the whole chain below it); stated for pairs of answers anywhere
in a program with any number of objects, it needs no notion of explanation.

*Model.*  That of C87; nothing new.

*Specification* (`Props/Laws.lean`).  `Reports`: what a command gives contains the weight `q` for network `N` and events `F` (`decode` with `return_weight`, a shot of `decode_batch` with
`return_weights`, a trial of a simulation).  `Off N s`: `s` is 0 if all weights are integers, and otherwise about one and a half rounding steps per link.

*Theorems.*  For reported weights `q`, `q'` with slacks `s`, `s'`:
`C88_easier`: if all links of `N` are in `N'`, under new names of nodes, in any order and direction, with no larger weights, and boundary nodes stay boundary nodes, then `q' <= q + s + s'`;
`C88_alike`: renaming, reordering and turning round edges changes nothing, up to `s + s'`;
`C88_scaled`: multiplying all weights by `c >= 0` multiplies the weight by `c`;
`C88_flipped`: changing the sign of the weight `w` of a link and toggling the events at its ends changes the weight by `w`;
`C88_triangle`: without negative weights, the weight for the exclusive or of two syndromes is at most the sum of the two weights;
`C88_parts`: if a network consists of two parts with no common node outside the boundary, its weight is the sum of the two weights;
`C88_program`, `C88_program_int32`: any two (three) reports in a run of a proper program are related in this way.

*How.*  Every report is least up to its slack (from `RightCommand`); each law maps explanations to explanations.

*Result.*  All proved.  The laws are the fields of `TwoLaws` and `ThreeLaws`; `C88_easier` and so on are stated for weights that are least up to a slack (`Least`), and `C88_program` applies them to all
reports in a run (`Lawful`).

## 3za. `decode` and `decode_to_edges_array` for the same syndrome (C89)

`decode` tells which fault ids are flipped, `decode_to_edges_array` lists edges.  A user who asks both for the same syndrome on an unchanged object expects two views of one correction.  With at most 64
fault ids the two calls take different ways: `decode` keeps the observable masks that were carried along while the regions grew, `decode_to_edges_array` searches for a shortest path for every matched pair afterwards.
Where there are several shortest paths the two may differ.

*Model.*  That of C69 (sessions in Python) and of C32 (sessions of calls on one decoder); nothing new.

*Specification* (`Props/Agree.lean`).  `Agree row es`: there is one set of links that `es` lists and whose fault ids `row` tells.  `Decided N F`: all cheap explanations have the same fault ids.

*Theorems.*  `C89_statement`: the two replies always agree.  `C89_statement_false`: they do not (a square of four edges with equal weights).  `C89_agree_partial`, `C89_agree_int32_partial`: they agree in every
program if the cheap explanations of the syndrome all have the same fault ids.  `C89_wide_partial`: with more than 64 observables they always agree, ties or not, wherever the calls are in a session.

*How.*  The first two from `Right` for both replies.  `C89_wide_partial`: both calls compute the same list of paths from a new decoder (`matching_cases`, `collect`), and C32 carries this to sessions.

*Result.*  As planned.  `C89_wide_partial` is about a decoder, not about programs in Python.

*Second part: programs.*  `C89_wide_program_partial` (and `_int32_`): in a program with more than 64 fault ids after its building statements, `decode(z)` and `decode_to_edges_array(z)`, asked
with only questions and looks between them, describe one set of links, or both raise.  Plan: both answers are those of a new object with integer weights (`question_first`, as for C91); both of
these come from one decoder at rest (`stand_in`, `fresh_of`), where `both_spec` applies.  Result: proved (`Props/AgreeProgram.lean`).

## 3zb. When decoding raises (C90)

C69 says that a question raises an exception only if no set of edges explains the syndrome.  A user wants to know this without solving the problem: decoding fails exactly if there is a group of detectors
that no edge leaves, neither to another detector nor to the boundary, with an odd number of events.

*Model.*  That of C87; nothing new.

*Specification* (`Props/Solvable.lean`).  `Sealed N S`: `S` is a finite set of nodes outside the boundary, and every link has both ends in `S` or none.  `OddGroup N F`: a sealed set with an odd number of
events.  `Refuses N s`: the array does not fit, or there is an odd group (for a batch: for one of the shots).

*Theorems.*  `C90_solvable`: a network has an explanation of the events iff there is no odd group.  `C90_program`, `C90_program_int32`: in every proper program with several objects, the reply to `decode`,
`decode_to_edges_array`, `decode_batch` and (without negative weights) to the two questions for matched pairs is an exception iff `Refuses`.  `C90_reach`: if from every node the boundary can be reached
along links, there is no odd group.  `C90_weights`: whether a question is refused does not depend on weights and fault ids.

*How.*  One direction counts ends of links in `S`; the other is by induction over the links: if the condition fails without link `l`, it fails for a set that `l` leaves, and then it holds for the events
toggled at the ends of `l`.

*Result.*  All proved.

## 3zc. Questions leave no trace in programs (C91)

C69 says that each reply is right.  Where several corrections have the same weight, several replies are right, and C69 does not say which is given.  So it does not exclude that a call of `decode` changes
which of the best corrections a later call finds, or that `return_weight=True` changes the prediction.

*Model.*  That of C69; nothing new.

*Specification* (`Props/Trace.lean`).  A program with a mark at each statement: kept or dropped.  Only questions and inspections are dropped.  `shorter` is the program of the kept statements, and `keptOf` picks the
replies to the kept statements.  `plain` is a statement with `return_weight` turned off, `bare` a reply without its weights.

*Theorems.*  `C91_program`, `C91_program_int32`: if the whole program is proper, both programs end, and the shorter one gets exactly the replies that the kept statements get in the whole one, bit by bit.
`C91_again`, `C91_again_int32`: the same question asked twice, with nothing but questions and inspections in between, gets the same reply.  `C91_weights`: for every program (proper or not), turning `return_weight` off
takes the weights from the replies and changes nothing else.  `C91_rows`, `C91_rows_int32`: `decode_batch` gives for each row what `decode` gives for the events of that row at the same moment.
`C91_made`, `C91_made_rows` (`Props/TraceMade.lean`) and their `_int32` versions: the same for objects made from a check matrix or a detector error model, with the conditions of C87.

*How.*  Two objects that stand for the same graph (in the sense of the invariant of C68) give the same reply, because each answer is that of a new object with that graph (`FirstAnswer`), which is unique.
The building statements do not look at the cached decoder.

*Several objects.*  (`Props/TraceWorld.lean`, `C91_world`, `C91_world_int32`): the same in programs with any number of objects, constructors, samples and the one random source.  Questions and
inspections of any object can be left out; the other commands give the same results, samples and trials included, and the generator is in the same state afterwards.  Proof: two worlds in which each name
stands for two objects of the same graph (up to the flag), by induction over the program; samples depend on the graph only up to the flag, and questions are those of `both_of`.

*Result.*  All proved.  If `decode_batch` raises, `C91_rows` says nothing more; C69 and C90 say when it does.

## 3zd. The returned weight is the weight of the returned edges (C92)

*Claim.*  `decode(z, return_weight=True)` (or a shot of `decode_batch(..., return_weights=True)`, or a trial) and `decode_to_edges_array(z)`, asked anywhere in a program with any number of objects about
networks that are the same, without negative weights or with negative weights but all links shown in different ways (`Distinct`): the weight is the sum, over the edges listed, of the least weight of an edge between these two ends (boundary nodes are all the same here).  Exactly if
all weights are integers, otherwise up to about three rounding steps per edge.  This holds also where the two calls describe different corrections (C89).  C41 says it for one decoder in units of rounded
weights; here it is in the terms of the user, who adds up weights from `edges()` or `get_edge_data`.

*Specification.*  `Lightest N e w`: `w` is the least weight of a link that is shown as `e`.  `Listed`: a list of edges among the results.  `Seen`, `Off` as in C88.

*How.*  From the list the user gets the set of the lightest links of each listed pair of ends.  From the set `C` of C69 behind the list one gets, by keeping the lightest link for each pair of ends that
occurs an odd number of times in `C`, an explanation that costs no more than the sum; and the sum costs no more than `C`.  Both are compared with the returned weight through `Least` of C88.

*Result.*  Proved: `C92_program`, `C92_program_int32` (`Props/Sum.lean`).

## 3ze. The weights of the matched pairs add up to the returned weight (C93)

*Claim.*  If `decode_to_matched_dets_array(z)` returns some pairs, the weight that is returned for `z` is the sum of the weights that are returned for the syndromes that consist of one pair each (one event,
if it is paired with the boundary).  All these may be asked at different moments of a program and of different objects, as long as the networks are the same.  Exactly if all weights are integers, otherwise
up to three times `s` (see C88) for each of the calls.

*Specification.*  `Matched`: an array of pairs among the results.  `Seen`, `Off` as in C88.

*How.*  `Paired` of C72 gives a cheap explanation of each pair and one of all events; each is compared with the returned weights through `Least` of C88 and `cheap_off` of C92.

*Result.*  Proved: `C93_program`, `C93_program_int32` (`Props/PairSum.lean`).

## 3zf. Below half the distance, programs are always right (C94)

*Claim.*  C64 for programs with any number of objects, in double precision.  If every set of links that flips no detector but some fault id costs at least `d`, and no weight is negative, then each prediction
(of `decode`, of a row of `decode_batch`, packed or not, or of `decode` for a sample of `add_noise`), without correlations, is the set of fault ids of `E`, for every set `E` of links that explains the events and has `2 cost(E) + s < d`
(`s` as in C88; 0 if all weights are integers).  In particular a sample whose flipped links cost less than that is predicted correctly: noise and prediction are equal.

*Specification.*  `Predicts`: a row of predictions among the results.  `Distance N d`.  `Unseen`, `Harmful` as in C85.

*How.*  The set `C` behind the row costs at most `cost(E) + s`; the symmetric difference of `C` and `E` flips no detector and costs less than `d`, so it flips no fault id.

*Result.*  Proved: `Below.C94_program`, `C94_program_int32`.  Loops of samples decoded with `decode_batch`: `Simulate.C85_corrected_loop`.

## 3zg. An unambiguous syndrome has one prediction (C95)

*Claim.*  In programs with any number of objects, two predictions (as in C94) for the same problem agree in each fault id if the problem is clear: all explanations whose cost is least (least up to `e`, if not all
weights are integers) flip the same fault ids.  The problem is the same if the links are the same in some order and direction, after nodes are renamed and all weights are multiplied by a positive number.
Weights may be negative.  Without "clear" this is false, as several explanations can be equally good.

*Specification.*  `Near`, `Unambiguous`, `Renamed`, `Bit`, `Foreseen` (a prediction in the run), `Agree`.

*How.*  Both rows tell near-best explanations (`Below.predicts_cheap`, `Sum.cheap_off`); `Laws.carry` carries the second one over to the first network.

*Result.*  Proved: `Clear.C95_program`, `C95_program_int32`.

## 3zh. Separate parts of the graph are predicted separately (C96)

*Claim.*  If no link connects the nodes of a set `P` with other nodes (boundary nodes do not count), no weight is negative, and the events inside and the events outside `P` are both unambiguous (C95), then the
prediction for all events is the sum mod 2 of the predictions for the two groups of events.  (A user may put the graphs for X and Z errors into one object.)  Calls at any moments of a program and for any objects
with the same links.

*Specification.*  `Apart N P`, `Foreseen`, `Unambiguous`, `Bit`.

*How.*  A best explanation of all events splits into the links that touch `P` and the others; each half is best for its group (an exchange argument).

*Result.*  Proved: `Apart.C96_program`, `C96_program_int32`.

## 3zi. A unique best explanation is what every method returns (C97)

*Claim.*  If a set `E` of links explains the events and every other explanation costs more (more than `s` more, `s` as in C88, if not all weights are integers), then each `decode`, row of `decode_batch` and
decoded sample gives the fault ids of `E`, each `decode_to_edges_array` lists the links of `E` (as they are shown), and each returned weight is the cost of `E` (up to `s`); in programs with any number of objects,
without correlations, at any moment at which the object has these links.

*Specification.*  `Only N s F E`; `Foreseen` (C95), `Listed` (C92), `Seen` (C88).

*How.*  The explanation behind each reply costs at most `cost E + s`, so it is `E`.

*Result.*  Proved: `Only.C97_program`, `C97_program_int32`.

## 3zj. Edges that are heavier than some explanation do not matter (C98)

*Claim.*  In programs with any number of objects, if a network is another one with more links, all of these heavier than some explanation of the events (by `s`), and no weight is negative, then the predictions
for the two networks agree (the events unambiguous as in C95 in the smaller one), and so do the weights (up to `s + s'`).  So a user may leave out links that are too heavy to be needed.

*Specification.*  `Extends w`: the other links weigh more than `w`; `Foreseen`, `Unambiguous`, `Bit` (C95), `Seen` (C88).

*How.*  The explanation behind a reply for the larger network costs at most `w`, so it has none of the other links, and it is an explanation in the smaller network.

*Result.*  Proved: `Heavy.C98_program`, `C98_program_int32`.

## 3zk. Small errors in the weights do not change the answer (C99)

*Claim.*  Let `E` be the unique best explanation for some true weights, with margin `m` (every other explanation costs more than `m` more).  If the object has the same links with weights that differ from the
true ones by at most `d` in total, and `d + s ≤ m` (`s` as in C88, 0 if the weights of the object are integers), then predictions and lists of edges are those of `E`, and the weight is the cost of `E` in
the weights of the object, up to `s`.

*Specification.*  `Perturbed φ d N N'`; `Only` (C97).

*How.*  `E` is the unique best explanation for the weights of the object with margin `m - d`; then C97.

*Result.*  Proved: `Steady.C99_program`, `C99_program_int32`.

## 3zl. Parts of a correctable error are correctable (C100)

*Claim.*  If `E` is the unique best explanation of its events (C97) and no weight is negative, then for each part `E'` of `E`, every reply about the events of `E'` is about `E'`: fault ids, edges and weight.

*Specification.*  `Only` (C97); `Explained E' F'` says that `F'` are the events of `E'`.

*How.*  If `D` explains the events of `E'`, the symmetric difference of `D` and `E \ E'` explains those of `E`, and costs at most `cost D + cost (E \ E')`.  So `E'` is the unique best explanation; then C97.

*Result.*  Proved: `Portion.C100_program`, `C100_program_int32`.

## 4. Disagreements between code and property, found while reading


* C69: `add_boundary_edge` accepts any keyword argument and ignores it (matching.py:766).  `add_boundary_edge(0, qubit_id=3)` adds an edge without fault id, and a misspelt
  `fault_id=3` or `wieght=2` goes unnoticed in `add_edge` and in `add_boundary_edge`.
* C77: the documentation of `min_num_fault_ids` says that `num_fault_ids` becomes `max(min_num_fault_ids, max_id)`; it is `max(min_num_fault_ids, max_id + 1)`.
* C04: `to_vector`, `satisfies_invariants` and `operator<<` skip bucket 32, which is reachable when the
  clock and a pending event are on opposite sides of a multiple of 2^31.
* C11: `bit_vector_to_obs_mask` shifts an `int`; index >= 32 is undefined behaviour, index 31 sign-extends.
* C18: replacing an edge's fault ids through a merge does not update the number of observables.  With more than 64 fault ids `decode` then writes past the end of the array of predictions
  (`UserEdges.C18_decode_out_of_bounds`; two `add_edge` calls and one `decode`).
* C15: a rejected second boundary edge of negative weight has already changed the negative-weight bookkeeping
  (`graph.cc:99-108`); never triggered through the user-level graph (`C35_conversion_accepted`).
* C22: a mechanism that lists the same edge twice as a component is counted several times in the joint
  probabilities.
* `convert_rule` (implied weights, `graph.cc:166-182`): a rule whose target edge is a self-loop, or leads to a node that was later made a
  boundary node, looks up a neighbour that does not exist; `index_of_neighbor` raises "Failed to find neighbor.", so that the graph
  cannot be decoded with `enable_correlations=True` at all.  A model that the loader accepts is enough: `error(0.125) D0 D0 ^ D1` (`CliD.C83_looped`).
* C52: an implied weight of 0 has no sign, so it passes the check of `user_graph.cc:449` also for an edge of negative weight.  In the second pass
  the edge then has weight 0, but the sum of the negative weights still counts its old weight: the returned weight is wrong
  (`Correlated.C52_statement_false`: -10 instead of -4).  Reached by loading `error(0.1) D0 L0 ^ D1 L1` with correlations and
  replacing an edge by one of negative weight.
* C41: a negative self-loop is counted by the matching graph but dropped by the search graph.
* C42: a NaN weight passes the check `abs(weight) > MAX`.
* C44: the command line always uses the 64-observable path when counting mistakes.
* Detection events listed twice: the same node gets two regions; the theorems ask for distinct events.
* C49: `to_matching_or_search_graph_helper` keeps only the lightest of several edges from a detector to the boundary (different boundary nodes
  and the virtual boundary).  Two negative ones would both belong to an optimal correction; the comment in user_graph.h:168 suggests that
  negative parallel boundary edges are handled.  Negative edges between two boundary nodes are dropped as well.
* C26: path search without a path dereferences null.
* C50, C61: `wrapped_radius_cached` is 32-bit (see 3g).  On a graph with events farther apart than 64 edges of the largest weight, `decode` can run forever
  (`Narrow.C61_hangs`).
* C33: an out-of-range event raised in the middle of a syndrome leaves the queue non-empty.  From then on every `decode` on that object raises
  (`Invalid.C33_stuck`), until the graph is modified.  In Python: `decode_batch` with `bit_packed_shots=True` and a padding bit that is set.
* C65: if the largest absolute weight is below about `2^-1000` and not 0, `(2^24-1)/max_abs_weight` is infinite and the cast of `round(weight * inf)` to `int32_t` is
  undefined behaviour (`Double.C65_tiny_undefined`); just above, twice the constant is infinite and every solution is reported to have weight 0
  (`Double.C65_tiny_weight`, and the example `lost`).  Nothing checks weights from below.
* `user_graph.cc:449`: the product of the two weights may underflow to zero, so that weights of different sign, both below about `2^-537`, pass the check of
  signs.  Weights loaded from a detector error model are not that small.
* C67: `astype(np.uint8)` is applied before the entries are checked; 257 or -255 counts as 1 (`Python.C67_statement_false`).
* C66: `weights=np.float32(2)` is accepted and stands for all columns, `error_probabilities=np.float32(0.1)` raises an exception (`matching.py`: one branch tests for
  `np.number`, the other does not).  Both names of the measurement error probability at once are refused only if there is more than one repetition.
  A faults matrix with explicitly stored zeros is refused although it only has zeros and ones.
* C85: `add_noise` is documented to return `None` if not all edges have an error probability.  The flag `_all_edges_have_error_probabilities` is cleared by an edge without
  probability and never set again: after such an edge has been replaced (`merge_strategy="replace"`) by one with a probability, all edges have one and `add_noise` still returns `None`
  (`Simulate.C85_still_none`).
* C89: `decode` and `decode_to_edges_array` may describe different corrections of the same weight (`Agree.C89_statement_false`): with edges (0,1), (1,2), (2,3), (3,0) of weight 1 and events
  at 0 and 2, `decode` predicts the fault ids of (0,1) and (1,2), `decode_to_edges_array` lists (3,0) and (3,2).

## 5. How to check

`cd lean && lake build`; `#print axioms` on the theorems named in `MANIFEST.json`.
