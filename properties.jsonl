{"id": "C01", "title": "Layout constructor accepts exactly the tileable sizes", "statement": "Constructing HoneycombLayout raises NotImplementedError exactly when data_width is odd or data_height is not a multiple of 6; for every accepted layout the tile counts multiply back to the data dimensions and the coordinate period is 2*data_width by data_height.", "quantifier": "every pair of integers (data_width, data_height)", "why_tests_cant": "Tests try a few literals; acceptance and the derived tile arithmetic must be right for every integer.", "anchors": ["src/honeycomb_layout.py: HoneycombLayout.__post_init__, tile_width, tile_height, coord_width, coord_height"]}
{"id": "C02", "title": "wrap is the canonical torus representative", "statement": "For every accepted layout of positive size, wrap(c) lies in [0, coord_width) x [0, coord_height), differs from c by a whole number of periods in each direction, is idempotent, and two points get the same wrapped value exactly when they are the same point of the torus.", "quantifier": "every layout size and every (half-)integer coordinate, including negative ones", "why_tests_cant": "Negative and multiply wrapped coordinates are unbounded.", "anchors": ["src/honeycomb_layout.py: HoneycombLayout.wrap"]}
{"id": "C03", "title": "Hexagon faces are enumerated once and three-coloured consistently", "statement": "For every positive size the three lists round_hex_centers(0..2) are duplicate free, pairwise disjoint, have data_width*data_height/6 entries each, and a wrapped point is a face centre of category r exactly when its x is even, its y has the parity of x/2 and y is r modulo 3.", "quantifier": "every accepted positive width and height", "why_tests_cant": "Tests instantiate a handful of small tori (width 2..8, height 6..24); the claim is about every accepted width and height at once.", "anchors": ["src/honeycomb_layout.py: _hex_center_categories, round_hex_centers"]}
{"id": "C04", "title": "Each sub-round measures a perfect matching of the data qubits", "statement": "For every layout size and every sub-round number, every data qubit is an endpoint of exactly one edge of round_edges(sub_round), both endpoints of each edge are data qubits and they are different.", "quantifier": "every accepted positive size, every integer sub-round (the argument is reduced mod 3)", "why_tests_cant": "Tests instantiate a handful of small tori (width 2..8, height 6..24); the claim is about every accepted width and height at once.", "anchors": ["src/honeycomb_layout.py: round_edges, EdgeType.hex_to_edge, data_qubit_coords"]}
{"id": "C05", "title": "The three sub-rounds partition a simple 3-regular bipartite edge set", "statement": "all_edges has no duplicates, its measurement-qubit positions (edge centres) are pairwise distinct, each round has data_width*data_height/2 edges, every data qubit has exactly three incident edges (one per round), and each edge's left end is on the even checkerboard class and its right end on the odd class.", "quantifier": "every accepted positive width and height", "why_tests_cant": "Tests instantiate a handful of small tori (width 2..8, height 6..24); the claim is about every accepted width and height at once.", "anchors": ["src/honeycomb_layout.py: all_edges, Edge.__init__, _data_qubit_parity"]}
{"id": "C06", "title": "Qubit counts match the advertised num_qubits", "statement": "There are exactly data_width*data_height data qubits and 3/2 times as many measurement qubits, the two position sets are disjoint, and num_qubits equals the number of used qubit indices for every style.", "quantifier": "every accepted positive size and every style", "why_tests_cant": "Tests instantiate a handful of small tori (width 2..8, height 6..24); the claim is about every accepted width and height at once.", "anchors": ["src/honeycomb_layout.py: data_qubit_coords, measure_qubit_coords, num_qubits, used_qubit_coords, used_qubit_indices"]}
{"id": "C07", "title": "Qubit indexing is a bijection and the index lists are exact", "statement": "q2i maps the qubit positions one-to-one onto 0..N-1 with data qubits first; the first/second half index lists partition the data indices; qubit_indices_except(S) is the sorted exact complement of S.", "quantifier": "every accepted positive size; every excluded index collection", "why_tests_cant": "Tests instantiate a handful of small tori (width 2..8, height 6..24); the claim is about every accepted width and height at once.", "anchors": ["src/honeycomb_layout.py: q2i, data_qubit_indices, data_qubit_indices_1st, data_qubit_indices_2nd, measure_qubit_indices, qubit_indices_except"]}
{"id": "C08", "title": "The boundary of every face is six real edges from the two other rounds", "statement": "For a face of category c the three first_edges_around_hex are edges of round c+1, the three second_edges_around_hex are edges of round c+2, all six are distinct, the six qubits_around_hex are distinct data qubits, and each of those six qubits lies on exactly one first edge and exactly one second edge.", "quantifier": "every accepted positive size, every face, including tori one tile wide where opposite sides wrap together", "why_tests_cant": "Tests instantiate a handful of small tori (width 2..8, height 6..24); the claim is about every accepted width and height at once.", "anchors": ["src/honeycomb_layout.py: first_edges_around_hex, second_edges_around_hex, all_edges_around_hex, qubits_around_hex"]}
{"id": "C09", "title": "Face stabilizers are products of measured edges and commute with every measurement", "statement": "The Pauli product of the six edge operators around a face (each in its own round's basis) is, up to sign, the face's category basis on its six qubits, and that operator commutes with every edge operator measured in any sub-round.", "quantifier": "every size, every face, every edge of every sub-round", "why_tests_cant": "Tests instantiate a handful of small tori (width 2..8, height 6..24); the claim is about every accepted width and height at once.", "anchors": ["src/honeycomb_layout.py: sub_round_edge_basis, all_edges_around_hex, round_edges"]}
{"id": "C10", "title": "Logical observables commute with the next measurement and evolve by the declared edges", "statement": "For H and V, the observable returned by obs_before_sub_round(k) commutes with every edge operator measured in sub-round k, and multiplying it by the operators of obs_edges that are in round_edges(k) gives exactly obs_before_sub_round(k+1) up to sign.", "quantifier": "every size, both observables, every sub-round k (period 6)", "why_tests_cant": "Tests print six sub-rounds of one or two sizes.", "anchors": ["src/honeycomb_layout.py: obs_h_before_sub_round, obs_v_before_sub_round, obs_h_edges, obs_v_edges"]}
{"id": "C11", "title": "The observables span two logical qubits", "statement": "At every sub-round H(k) anticommutes with V(k), H(k) commutes with V(k+3), V(k) commutes with H(k+3), and H(k) with H(k+3), V(k) with V(k+3) commute; all of them commute with every face stabilizer.", "quantifier": "every size and every sub-round k", "why_tests_cant": "The double EPR test samples one 4x6 layout.", "anchors": ["src/honeycomb_layout.py: obs_h_before_sub_round, obs_v_before_sub_round", "src/honeycomb_circuit_double_epr_test.py"]}
{"id": "C12", "title": "Circuit generation succeeds exactly on the supported configurations", "statement": "make_circuit returns a circuit (no assertion, KeyError or other exception inside the measurement bookkeeping) for every accepted positive size, every supported style and observable and every sub_rounds >= 1 (a multiple of 3 for SI1000); it raises NotImplementedError for sub_rounds = 0, an unknown style, an unknown observable, or SI1000 with sub_rounds not a multiple of 3.", "quantifier": "every size, style, observable, sub-round count", "why_tests_cant": "Missing tracker entries only show up at particular (size, rounds) combinations; tests stop at 23 sub-rounds.", "anchors": ["src/honeycomb_circuit.py: generate_honeycomb_circuit and the generate_rounds_* functions", "src/honeycomb_layout.py: noise_model, obs_index"]}
{"id": "C13", "title": "The recorded problem description matches the circuit", "statement": "as_decoder_problem_desc reports rounds = ceil(sub_rounds/3), the layout's own width, height, noise and observable, the style prefixed by honeycomb_, num_qubits equal to the number of qubits the circuit uses and code_distance = min(data_width, 2*(data_height/3)).", "quantifier": "every layout", "why_tests_cant": "Tests never check the description.", "anchors": ["src/honeycomb_layout.py: as_decoder_problem_desc, code_distance_1qdep, num_qubits"]}
{"id": "C14", "title": "measurement_time_set is the exclusive-or of the selected history entries", "statement": "After any sequence of tracker operations, a query for keys k1..km returns the set of measurement times that occur in an odd number of the selected entries, where a plain key selects its latest entry and Prev(key, offset=o) the entry o before it; add_group stores exactly that set, add_measurements stores a fresh time, and the clock counts the measurements.", "quantifier": "every operation history, every key tuple, repeated keys included", "why_tests_cant": "Histories are unbounded; tests use three operations.", "anchors": ["src/measure_tracker.py: MeasurementTracker.add_measurements, add_dummies, add_group, measurement_time_set"]}
{"id": "C15", "title": "Record targets are well formed and address the intended measurements", "statement": "get_record_targets returns strictly increasing, strictly negative offsets, each at least -(number of measurements so far), and resolving offset t against the measurement record yields exactly the measurements in the time set.", "quantifier": "every operation history and query", "why_tests_cant": "Off-by-one addressing bugs need unbounded histories.", "anchors": ["src/measure_tracker.py: get_record_targets, append_detector"]}
{"id": "C16", "title": "Obstacles suppress and missing entries fail", "statement": "A query whose entries include an obstacle before any missing entry returns None and append_detector then emits nothing; a query that reaches a key with too few entries raises AssertionError; otherwise it returns a set and append_detector emits exactly one DETECTOR.", "quantifier": "every history and query", "why_tests_cant": "Order of obstacle and missing entries is combinatorial.", "anchors": ["src/measure_tracker.py: measurement_time_set, append_detector"]}
{"id": "C17", "title": "Nested Prev adds offsets", "statement": "Prev(Prev(...Prev(k, a)..., b), c) selects the entry a+b+...+c before the latest; any nesting depth is equivalent to one Prev with the summed offset.", "quantifier": "every nesting depth and offsets", "why_tests_cant": "Unbounded nesting.", "anchors": ["src/measure_tracker.py: Prev.__init__, measurement_time_set"]}
{"id": "C18", "title": "Without noise no detector ever fires", "statement": "For noise 0 (and for noise > 0 when no error is drawn) sampling the generated circuit with the stim detector-frame semantics yields False for every detector, whatever random outcomes the measurements and resets take.", "quantifier": "every size, style, observable, sub-round count >= 1, and every sequence of random measurement outcomes", "why_tests_cant": "stim checks determinism only for concrete circuits; tests stop at 8x30 and 23 sub-rounds.", "anchors": ["src/honeycomb_circuit.py: generate_honeycomb_circuit, fault_tolerant_init, fault_tolerant_measurement, _sub_round_measurements_and_detectors"]}
{"id": "C19", "title": "Without noise the logical observable never flips", "statement": "Under the same conditions the logical observable's frame is False for every sequence of random measurement outcomes.", "quantifier": "every size, style, observable, sub-round count >= 1, and every sequence of random outcomes", "why_tests_cant": "As C18.", "anchors": ["src/honeycomb_circuit.py: generate_honeycomb_circuit, fault_tolerant_measurement, _sub_round_measurements_and_detectors", "src/honeycomb_layout.py: obs_before_sub_round, obs_edges"]}
{"id": "C20", "title": "Loop compression does not change the circuit", "statement": "The circuit produced with REPEAT blocks, once unrolled, is instruction for instruction the circuit obtained by generating every sub-round individually, for every number of sub-rounds.", "quantifier": "every style, size, observable and number of sub-rounds", "why_tests_cant": "Tests pin one literal round count (1003); whether the steady state was reached is an inductive claim.", "anchors": ["src/honeycomb_circuit.py: generate_rounds_sd6, generate_rounds_pc3, generate_rounds_em3, generate_rounds_SI1000"]}
{"id": "C21", "title": "No qubit is used twice in one time step", "statement": "In the noiseless circuit, between two consecutive TICKs no qubit is targeted by two operations (or twice by one operation).", "quantifier": "every style, size, observable, sub-round count; every time step including the pipeline start and end", "why_tests_cant": "The runtime assertion that checked this is commented out, so nothing checks it on larger circuits.", "anchors": ["src/honeycomb_circuit.py: generate_honeycomb_circuit", "src/noise.py: noisy_circuit (disabled assertion)"]}
{"id": "C22", "title": "Measurement and detector counts are the advertised ones", "statement": "The circuit performs data_width*data_height/2 measurements per sub-round plus data_width*data_height final ones, and every DETECTOR and OBSERVABLE_INCLUDE record offset refers to a measurement that exists at that point of the circuit. The number of detectors is data_width*data_height/6 (the number of faces of one colour) times a number that depends only on the observable and the number n of sub-rounds: for V, n, plus 2 if n is even, plus 1 if n < 3; for H, n plus 2 if n is even or 4 if n is odd, plus 1 if n < 4 and another 1 if n < 2.", "quantifier": "every style, size, observable, sub-round count", "why_tests_cant": "Offsets inside REPEAT blocks are evaluated at every iteration.", "anchors": ["src/honeycomb_circuit.py: generate_honeycomb_circuit"]}
{"id": "C23", "title": "Detectors carry the position of the stabilizer they check", "statement": "Every DETECTOR has three coordinates, the first two being the position of a face (or, in the first and last layers, an edge) of the layout and the third 0, and one SHIFT_COORDS(0,0,1) follows each measurement layer, so the absolute time coordinate equals the sub-round.", "quantifier": "every style, size, observable, sub-round count", "why_tests_cant": "Coordinates are only pinned for one literal circuit per style.", "anchors": ["src/honeycomb_circuit.py: _sub_round_measurements_and_detectors, fault_tolerant_measurement"]}
{"id": "C24", "title": "A steady-state detector is the comparison of two consecutive face measurements", "statement": "From the fifth sub-round on (in the non-PC3 styles) every face of category (k-2) mod 3 gets exactly one detector in sub-round k, comparing the twelve edge measurements made around it in sub-rounds k, k-1, k-3 and k-4.", "quantifier": "every size and every sub-round k >= 4", "why_tests_cant": "Pinned in tests for a 2x6 layout only.", "anchors": ["src/honeycomb_circuit.py: _sub_round_measurements_and_detectors"]}
{"id": "C25", "title": "Adding noise only adds noise", "statement": "Deleting the noise instructions (and the MPP flip argument) from noisy_circuit(c) gives back c instruction for instruction, for every circuit the independent noise models accept; within a time step measurement noise comes first and gate noise last.", "quantifier": "every circuit built from supported operations, with arbitrarily nested REPEAT blocks, and every noise strength", "why_tests_cant": "Circuits are an infinite tree-shaped domain.", "anchors": ["src/noise.py: NoiseModel.noisy_op, noisy_circuit"]}
{"id": "C26", "title": "Zero noise strength is the identity", "statement": "With strength 0 every predefined noise model returns the input circuit unchanged.", "quantifier": "every supported circuit, every predefined model", "why_tests_cant": "As C25.", "anchors": ["src/noise.py: NoiseModel.SD6, PC3, EM3_v1, EM3_v2, SI1000, noisy_circuit"]}
{"id": "C27", "title": "Each operation gets exactly its own noise channel", "statement": "Clifford gates are followed by a depolarizing channel of matching arity on exactly their targets, resets by a flip of the reset basis, measurements are preceded by a flip of the measured basis, all with the strength the model assigns to that gate; annotations get none.", "quantifier": "every instruction and every noise model value", "why_tests_cant": "All gates x models x target lists.", "anchors": ["src/noise.py: NoiseModel.noisy_op, noisy_circuit"]}
{"id": "C28", "title": "Idle noise hits exactly the untouched qubits", "statement": "In each time step containing operations on qubits, every qubit of the tracked set that no operation of that step touched gets exactly one idle depolarization, no touched qubit gets one, and the additional measure/reset idle noise hits exactly the qubits neither measured nor reset in steps that measure or reset.", "quantifier": "every circuit, every tracked qubit set, every time step, inside and outside REPEAT blocks", "why_tests_cant": "Bookkeeping across TICKs and REPEAT boundaries for unbounded circuits.", "anchors": ["src/noise.py: NoiseModel.noisy_circuit (flush)"]}
{"id": "C29", "title": "Unsupported operations are refused", "statement": "noisy_circuit raises NotImplementedError exactly when the circuit (at any REPEAT depth) contains an operation that the model assigns no rate and is not an annotation.", "quantifier": "every circuit and model", "why_tests_cant": "As C25.", "anchors": ["src/noise.py: NoiseModel.noisy_circuit"]}
{"id": "C30", "title": "Noise never shifts the measurement record", "statement": "noisy_circuit produces the same number of measurements, detectors and observables in the same order as the input, even when parity measurements are expanded into ancilla circuits, so record offsets keep their meaning.", "quantifier": "every accepted circuit, every model incl. EM3_v2", "why_tests_cant": "As C25.", "anchors": ["src/noise.py: noisy_op, noisy_circuit, parity_measurement_with_correlated_measurement_noise"]}
{"id": "C31", "title": "Correlated parity noise has exactly the documented distribution", "statement": "Applying each non-identity component independently with the probability returned by mix_probability_to_independent_component_probability(p, n) gives the all-identity outcome with probability 1-p+p/2^n and every other of the 2^n-1 combined outcomes with probability p/2^n.", "quantifier": "every p in [0,1] and every n >= 1", "why_tests_cant": "The unit test checks p=0.1, n=5.", "anchors": ["src/noise.py: mix_probability_to_independent_component_probability"]}
{"id": "C32", "title": "The expanded parity measurement enumerates every non-identity error once and measures the right parity", "statement": "For every pair of distinct targets and bases the expansion contains exactly the 31 non-identity elements of {I,X,Y,Z}x{I,X,Y,Z}x{no flip, flip}, each once, and with no error it reports the same parity and has the same back-action as the MPP it replaces.", "quantifier": "every pair of qubits and bases, every frame", "why_tests_cant": "Finite but the frame quantifier is not.", "anchors": ["src/noise.py: parity_measurement_with_correlated_measurement_noise"]}
{"id": "C33", "title": "The noise ancilla is not a circuit qubit", "statement": "In the noisy EM3_v2 honeycomb circuits, the ancilla used for parity measurements differs from every qubit of the circuit, also inside REPEAT blocks.", "quantifier": "every size and sub-round count (and, for the general claim, every circuit)", "why_tests_cant": "Depends on the number of qubits mentioned inside the loop body.", "anchors": ["src/noise.py: noisy_circuit (ancilla = circuit.num_qubits in recursive calls)"]}
{"id": "C34", "title": "Error model flattening equals unrolling", "statement": "iter_flatten_model calls the handlers exactly as processing the fully unrolled model with absolute detector ids and coordinates would, splitting decomposed errors into their components.", "quantifier": "every detector error model with arbitrarily nested repeat blocks", "why_tests_cant": "Nested repeats with shifts are unbounded.", "anchors": ["src/decoding.py: iter_flatten_model"]}
{"id": "C35", "title": "The matching graph has the right edges and weights", "statement": "detector_error_model_to_nx_graph puts an edge between the two detectors of every (component of an) error of non-zero probability (or between its only detector and the boundary), ignores symptomless components, raises on more than two symptoms, and when all components on an edge agree on the logical frame the edge probability is the probability that an odd number of them fire.", "quantifier": "every model; every order and multiplicity of errors", "why_tests_cant": "Edge merging is an unbounded fold.", "anchors": ["src/decoding.py: detector_error_model_to_nx_graph"]}
{"id": "C36", "title": "Conflicting frame changes keep the first edge", "statement": "As the comment states, when two errors connect the same detectors with different logical frame changes the one seen first is kept.", "quantifier": "every model with conflicting errors", "why_tests_cant": "The code never asserts it; (the formal model shows it is false: the last one wins).", "anchors": ["src/decoding.py: detector_error_model_to_nx_graph.handle_error"]}
{"id": "C37", "title": "The pymatching graph is connected and skips no index", "statement": "detector_error_model_to_pymatching_graph always passes a graph whose nodes are exactly 0..num_detectors+1, which is connected, in which every original edge between detectors is unchanged, and in which every observable index occurs.", "quantifier": "every detector error model", "why_tests_cant": "The spandrel construction must work for every model, including empty ones.", "anchors": ["src/decoding.py: detector_error_model_to_pymatching_graph"]}
{"id": "C38", "title": "The correct count counts exactly the fully correct shots", "statement": "sample_decode_count_correct splits sampled rows into exactly num_detectors detector bits and num_observables observable bits (also when there are none) and returns the number of shots whose prediction equals all observable bits, hence a number between 0 and num_shots.", "quantifier": "every sample matrix, prediction matrix, detector and observable counts", "why_tests_cant": "numpy slicing with zero observables is a classic corner.", "anchors": ["src/decoding.py: sample_decode_count_correct"]}
{"id": "C39", "title": "The internal decoder exchange formats round-trip", "statement": "The dets text written for the internal decoder determines the sample matrix, the bytes of a prediction file in the expected format decode to exactly the predictions they encode, and malformed prediction files raise.", "quantifier": "every sample and prediction matrix", "why_tests_cant": "Unbounded data.", "anchors": ["src/decoding.py: decode_using_internal_decoder"]}
{"id": "C40", "title": "binary_search returns a closest argument", "statement": "For every monotonically ascending function and every target, binary_search terminates and returns an integer of the range whose value is at least as close to the target as that of every other integer in the range.", "quantifier": "every ascending function on the integers, every range, every target incl. infinite function values", "why_tests_cant": "Six literal cases in the tests.", "anchors": ["src/probability_util.py: binary_search"]}
{"id": "C41", "title": "binary_intercept returns a point within tolerance on the requested side", "statement": "If binary_intercept returns x then |func(x) - target| <= atol and x is start_x or lies strictly on the side of start_x that step points to; for a continuous function crossing the target it does return (in exact arithmetic).", "quantifier": "every function, start, step, target, tolerance", "why_tests_cant": "Four literal cases in the tests.", "anchors": ["src/probability_util.py: binary_intercept"]}
{"id": "C42", "title": "log_factorial is exact below 20 and close above", "statement": "log_factorial(n) equals ln(n!) for n < 20 and otherwise is below ln(n!) by at most 1/(12 n)-order error.", "quantifier": "every n", "why_tests_cant": "Tests use nine values.", "anchors": ["src/probability_util.py: log_factorial"]}
{"id": "C43", "title": "log_binomial is the log of the binomial probability", "statement": "For n < 20 log_binomial equals ln(C(n,hits) p^hits (1-p)^(n-hits)), with minus infinity exactly when that probability is 0, and p outside [0,1] is clamped; for all n it differs only by the log_factorial approximation.", "quantifier": "every n, hits <= n, real p", "why_tests_cant": "Sampled in tests.", "anchors": ["src/probability_util.py: log_binomial"]}
{"id": "C44", "title": "Likelihood bounds bracket the estimate", "statement": "likely_error_rate_bounds returns low <= num_errors/num_shots <= high within [0,1], and each bound is the point of the 1/(100 num_shots) grid on its side whose log likelihood is closest to the requested one.", "quantifier": "every num_shots >= 1, num_correct <= num_shots, ratio", "why_tests_cant": "Needs unimodality of the likelihood for every count.", "anchors": ["src/collect_data.py: ShotData.likely_error_rate_bounds", "src/probability_util.py: binary_search, log_binomial"]}
{"id": "C45", "title": "Per-piece error rates compose back to the total", "statement": "For 0 <= e <= 1/2 and any number of pieces >= 1, combining `pieces` independent flips of probability total_error_to_per_piece_error(e, pieces) gives total flip probability e; the result lies in [0,1/2] and is monotone in e; e > 1/2 is handled by reflection.", "quantifier": "every real e in [0,1], every number of pieces", "why_tests_cant": "Sampled in tests.", "anchors": ["src/plotting.py: total_error_to_per_piece_error"]}
{"id": "C46", "title": "Shot budget is respected", "statement": "For each problem the total number of sampled shots never exceeds max_shots (when min_shots <= max_shots or no larger max_batch was given) and no single batch exceeds max_batch.", "quantifier": "every parameter choice and every sequence of decoder results", "why_tests_cant": "Depends on the random error counts seen.", "anchors": ["src/collect_data.py: collect_simulated_experiment_data"]}
{"id": "C47", "title": "Collection terminates and stops only for a stated reason", "statement": "With min_shots, max_batch, max_shots >= 1 the per-problem loop ends after finitely many batches, every batch has at least one shot, and it ends only when max_shots is reached, enough errors with small enough deviation were seen, or the error rate is near one half with at least 10 errors; min_shots shots are taken first unless a smaller max_batch was set.", "quantifier": "every parameter choice and every sequence of decoder results", "why_tests_cant": "As C46.", "anchors": ["src/collect_data.py: collect_simulated_experiment_data"]}
{"id": "C48", "title": "The CSV accounts for every sampled shot", "statement": "The rows written for a problem list its identity unchanged, and the sums of their num_shots and num_correct columns equal the shots sampled and the correct predictions counted; rows for problems appear in the order given; the same rows go to stdout and to the file.", "quantifier": "every list of problems and decoder results", "why_tests_cant": "As C46.", "anchors": ["src/collect_data.py: collect_simulated_experiment_data"]}
{"id": "C49", "title": "Data files survive restarts", "statement": "With discard_previous_data=False rows already present are never altered and new rows are appended; a run interrupted between rows leaves a file that reads back as the rows completed so far; a header is written exactly when the file is new or discarded.", "quantifier": "every crash point between writes, every restart sequence", "why_tests_cant": "Crash points and restart histories are unbounded. (The formal model also shows the crash window that loses the header.)", "anchors": ["src/collect_data.py: collect_simulated_experiment_data, read_recorded_data"]}
{"id": "C50", "title": "Reading sums shots per problem, independent of order and splitting", "statement": "read_recorded_data returns, per distinct description, the sums of shots, correct counts and seconds over all rows of all files; the totals do not depend on row order, file order or how rows are split over files, and descriptions without rows are absent.", "quantifier": "every collection of files and rows", "why_tests_cant": "Permutations and splits are unbounded.", "anchors": ["src/collect_data.py: read_recorded_data"]}
{"id": "C51", "title": "Grouping, merging and filtering conserve shots", "statement": "grouped_by partitions the entries (each goes to exactly one group, values unchanged, group keys sorted), merged_by gives per-key sums and leaves its input unchanged, filter keeps exactly the entries satisfying the predicate.", "quantifier": "every data set, key function and predicate", "why_tests_cant": "Higher-order and unbounded.", "anchors": ["src/collect_data.py: ProblemShotData.grouped_by, merged_by, filter"]}
{"id": "C52", "title": "CSV rows round-trip", "statement": "A record written for a description and counts is read back by the CSV reader as the same description and counts.", "quantifier": "every description whose text fields contain no comma, quote or line break, all counts", "why_tests_cant": "Unbounded data.", "anchors": ["src/collect_data.py: collect_simulated_experiment_data (record), read_recorded_data, CSV_HEADER"]}
{"id": "C53", "title": "Aggregating CSV files preserves the data", "statement": "Aggregating any csv files prints one row per distinct description in sorted order, and reading the result gives the same totals as reading the originals; aggregating again changes nothing.", "quantifier": "every set of files", "why_tests_cant": "Unbounded data.", "anchors": ["src/paper/aggregate_csv_data.py: main", "src/collect_data.py: read_recorded_data"]}
{"id": "C54", "title": "with_changes changes exactly the named fields", "statement": "with_changes replaces exactly the arguments that are not None and keeps the others; applying no change is the identity and disjoint changes commute.", "quantifier": "every description and argument combination", "why_tests_cant": "2^9 argument combinations times unbounded values.", "anchors": ["src/collect_data.py: DecodingProblemDesc.with_changes"]}
{"id": "C55", "title": "Remaining work is consistent", "statement": "finished is true exactly when one of the three limits is reached; remaining_shots and remaining_errors are 0 when finished and positive otherwise; remaining_time is non-negative, and logical_error_rate is in [0,1].", "quantifier": "every shot data and limits", "why_tests_cant": "Unbounded values.", "anchors": ["src/collect_data.py: RemainingWork, ShotData.logical_error_rate"]}
{"id": "C56", "title": "Detection fraction records count non-detections", "statement": "collect_detection_fraction_data writes one row per problem whose counts are shots*detectors and the number of non-detections, so the recorded error rate is the detection fraction.", "quantifier": "every sample matrix", "why_tests_cant": "Unbounded data.", "anchors": ["src/collect_data.py: collect_detection_fraction_data"]}
{"id": "C57", "title": "Circuit iteration for diagrams is unrolling", "statement": "Iterating a circuit for plotting without only_repeat_block yields exactly the unrolled instruction sequence; with it, exactly the qubit coordinates plus one pass over each top-level repeat block's unrolled body.", "quantifier": "every circuit with nested REPEAT blocks", "why_tests_cant": "Unbounded nesting.", "anchors": ["src/circuit_diagrams.py: _iter_circuit"]}
{"id": "C58", "title": "2-d text diagrams place every value at its coordinate", "statement": "For single-character non-blank values diagram_2d puts the value of coordinate x+iy at column x of line y, blanks elsewhere, with trailing whitespace trimmed.", "quantifier": "every finite map from non-negative integer coordinates to characters", "why_tests_cant": "Unbounded maps.", "anchors": ["src/circuit_diagrams.py: diagram_2d"]}
{"id": "C59", "title": "Combined code-cell error rates are probabilities derived from both observables", "statement": "combo_data lists each distance with non-zero error rates once, in increasing order, with value 1-(1-pH)(1-pV) where a missing observable is replaced by the other one; groups_from_data assigns each description to exactly one noise group and one of the two observable tables.", "quantifier": "every data set", "why_tests_cant": "Unbounded data.", "anchors": ["src/paper/main_render_lambda_figure.py: LambdaGroup.combo_data, groups_from_data"]}
{"id": "C60", "title": "Qubit count projection is consistent with the layouts", "statement": "For honeycomb styles the projected qubit count for distance d is the qubit count of the smallest 4k x 6k layout of distance at least d, for surface codes 2d^2-1.", "quantifier": "every representative problem produced by the collection script, every distance d >= 1", "why_tests_cant": "Unbounded distances.", "anchors": ["src/paper/main_render_lambda_figure.py: LambdaGroup._d_to_q", "src/paper/main_collect_all.py: honeycomb_problems, surface_code_problem"]}
{"id": "C61", "title": "Least squares helpers minimise the stated cost", "statement": "Among all lines through the required point (or with the required slope) the returned fit minimises the sum of squared residuals, passes exactly through the point (has exactly the slope), given that the external optimiser returns a minimiser of the function it is handed.", "quantifier": "all data sets and constraints", "why_tests_cant": "Real-valued quantifiers.", "anchors": ["src/probability_util.py: least_squares_cost, least_squares_through_point, least_squares_with_slope, least_squares_output_range, least_squares_slope_range"]}
{"id": "C62", "title": "Data errors have matchable symptoms", "statement": "A single-qubit Pauli error on a data qubit flips exactly the two faces whose category differs from the error's basis among the three faces touching the qubit, and a single edge measurement is used by exactly one face as a first edge and exactly one face as a second edge.", "quantifier": "every size, qubit, Pauli, edge", "why_tests_cant": "All sizes at once.", "anchors": ["src/honeycomb_layout.py: qubits_around_hex, first_edges_around_hex, second_edges_around_hex"]}
{"id": "C63", "title": "The last conflicting error decides the edge", "statement": "Between two nodes of the matching graph that are connected by components of non-zero probability, the edge carries the logical frame changes of the last such component and the odd-parity probability and log odds of the trailing run of components that agree with it on the frame changes; earlier components have no influence.", "quantifier": "every detector error model; every order, multiplicity and mix of conflicting errors", "why_tests_cant": "The outcome depends on the whole sequence of errors on an edge, so no finite set of sequences settles it.", "anchors": ["src/decoding.py: detector_error_model_to_nx_graph.handle_error"]}
{"id": "C64", "title": "Complete list of detectors", "statement": "The generated circuit's detectors are, in order, for each sub-round every face completed in it whose parity was already determined (plus, for the horizontal observable, every edge of the first sub-round), and after the final data measurement every edge or face whose parity it repeats. Each has the absolute coordinates of its face or edge and its sub-round number, and compares exactly the edge measurements of the face in the current and the previous completed cycle (PC3: with the middle measurements cancelled), each once.", "quantifier": "every valid size, style, observable, noise level and sub-round count >= 1, every detector", "why_tests_cant": "The repository checks detector counts and graphlike distance at a few sizes; a wrong or missing measurement in one detector at another size or round count is not covered.", "anchors": ["src/honeycomb_circuit.py: generate_honeycomb_circuit, _sub_round_measurements_and_detectors, fault_tolerant_measurement", "src/measure_tracker.py: MeasurementTracker.append_detector"]}
{"id": "C65", "title": "Extrapolated error rates, distances and lambdas are consistent", "statement": "The fit of a group with data is always defined; projecting the distance for a target error rate and then the error rate for that distance gives the target back; when errors are suppressed lower targets need larger distances; lambda is the factor by which the projected error rate falls when the distance grows by 2; the projected lambda range is ordered around the fitted lambda.", "quantifier": "every group of recorded error rates, every target error rate and distance, every optimiser that minimises", "why_tests_cant": "Real-valued quantifiers and arbitrary data sets.", "anchors": ["src/paper/main_render_lambda_figure.py: LambdaGroup.linear_fit_d_to_log_err, projected_error, projected_distance, appears_to_be_suppressing_errors, projected_lambda_range"]}
{"id": "C66", "title": "The collection script's problems are distinct and can always be plotted", "statement": "The problems of the collection script are pairwise distinct, every honeycomb one has a valid and supported layout and runs for exactly three code cells; within a circuit style and decoder a problem is determined by noise, kind of observable and distance, so grouping any subset of its results never fails.", "quantifier": "every data set whose keys are problems of the collection script", "why_tests_cant": "All subsets of the problems and all recorded statistics.", "anchors": ["src/paper/main_collect_all.py: honeycomb_problems, surface_code_problems, surface_code_problem", "src/paper/main_render_lambda_figure.py: LambdaGroup.groups_from_data"]}
{"id": "C67", "title": "Complete list of observable annotations", "statement": "The generated circuit's observable annotations all carry the layout's observable index. After each sub-round they add exactly the measurements of the observable's edges measured in that sub-round (PC3: once at the end, only the last measurement of each such edge), and at the end the final measurements of exactly the data qubits the observable occupies then.", "quantifier": "every valid size, style, observable, noise level and sub-round count >= 1, every annotation", "why_tests_cant": "A wrong edge in one sub-round at one size would only show up as a flipped observable for some outcomes at that size.", "anchors": ["src/honeycomb_circuit.py: generate_honeycomb_circuit, _sub_round_measurements_and_detectors, fault_tolerant_measurement", "src/honeycomb_layout.py: obs_edges, obs_before_sub_round, obs_index"]}
{"id": "C68", "title": "Code distance", "statement": "Let Pauli faults hit data qubits at any places of the circuit make_circuit returns. If no detector fires and the layout's observable is flipped, there are at least code_distance faults, where code_distance is the number reported in the problem description; for observable \"V\" at least data_width, for \"H\" at least two thirds of data_height.", "quantifier": "every valid size, style, observable, noise level and sub-round count >= 1 (SI1000: multiple of 3), every set of faults, every place, every measurement outcome", "why_tests_cant": "The number of fault sets grows exponentially with the size and the number of rounds; a test can only search small sizes.", "anchors": ["src/honeycomb_layout.py: code_distance_1qdep, as_decoder_problem_desc, make_circuit", "src/honeycomb_circuit.py: generate_honeycomb_circuit"]}
{"id": "C69", "title": "The reported code distance is exact", "statement": "For every size, style, noise and number of sub-rounds the code_distance in the problem description is the least number of Pauli faults on data qubits that, with no detector firing, flip the observable of the circuit for \"V\" or of the circuit for \"H\"; each observable's own bound is attained too (data_width faults for \"V\", two thirds of data_height for \"H\").", "quantifier": "every valid size, style, noise level and sub-round count >= 1 (SI1000: multiple of 3), every fault set", "why_tests_cant": "It is a minimum over exponentially many fault sets, at every size.", "anchors": ["src/honeycomb_layout.py: code_distance_1qdep, as_decoder_problem_desc, make_circuit", "src/honeycomb_circuit.py: generate_honeycomb_circuit"]}
{"id": "C70", "title": "Plotted curves show exactly the recorded data", "statement": "plot_data draws one curve per problem up to noise, in the order of the problems. A curve's points are exactly the problems with at least one error, at their noise and their error rate per code cell; its band has one entry for every problem, made of the likely error rate bounds per code cell; points and bands go from left to right; every point lies within its band. No two curves share both marker and colour. More than 30 curves (minus marker_offset) raise IndexError; a problem without shots raises ZeroDivisionError.", "quantifier": "all collections of recorded data with sensible counts and any marker offset", "why_tests_cant": "The data sets are unbounded; tests look at a figure for one data set at best.", "anchors": ["src/plotting.py: plot_data", "src/collect_data.py: ProblemShotData.grouped_by, ShotData.likely_error_rate_bounds"]}
{"id": "C71", "title": "Threshold figures show every collected problem in its own panel", "statement": "For data recorded by the collection script plot_thresholds succeeds, focused or not. Each panel draws exactly the curves of the data with the panel's circuit style, observable and decoder, below the name of its noise model. In the full figure every problem of the script has exactly one panel. The label of a row, made from the first column, is right for all panels of the row. It names the code, the decoder (Correlated or Standard) and the observable (Horizontal, Vertical, X or Z).", "quantifier": "all data whose problems are those of the collection script, with at least one shot per problem and no more correct shots than shots", "why_tests_cant": "The figure depends on all the data; a test sees one data set.", "anchors": ["src/paper/main_render_threshold_figure.py: plot_thresholds", "src/paper/main_collect_all.py: honeycomb_problems, surface_code_problems"]}
{"id": "C72", "title": "Detection fraction figure shows exactly the recorded fractions", "statement": "With at most 16 noise values plot_detection_fraction succeeds. Each column has one curve per noise value of its circuit style, in ascending order, with exactly the distances and fractions of its problems. Across all columns two curves have the same marker and colour exactly if they have the same noise value. Every problem that the script collects has exactly one column, and its distance and fraction are drawn there.", "quantifier": "all recorded data with at most 16 noise values", "why_tests_cant": "The data sets are unbounded.", "anchors": ["src/paper/main_render_detection_fraction_figure.py: plot_detection_fraction"]}
{"id": "C73", "title": "Two-qubit operations and errors stay on one edge", "statement": "In the generated circuit every two-qubit gate couples an end of a lattice edge to that edge's ancilla, every parity measurement measures the two ends of one edge, and every error that a noise channel can make stays on the two ends and the ancilla of one edge.", "quantifier": "all valid layouts and supported styles, all instructions of the circuit", "why_tests_cant": "Sizes and round counts are unbounded; a test looks at a few circuits.", "anchors": ["src/honeycomb_circuit.py: generate_honeycomb_circuit", "src/noise.py: NoiseModel.noisy_circuit"]}
{"id": "C74", "title": "Undetected damage must cross the torus", "statement": "If everything inside a region of data qubits goes wrong (any Pauli faults at any time on its data qubits and the ancillas of its edges, any wrong results about them) and no detector fires, the observable can only be flipped if the region has a data qubit in every column (V) or in one of any two adjacent rows (H); so it has at least data_width (V) or data_height/2 (H) data qubits.", "quantifier": "all valid layouts, all regions, all fault patterns inside them", "why_tests_cant": "The patterns of faults are infinitely many.", "anchors": ["src/honeycomb_circuit.py: generate_honeycomb_circuit", "src/honeycomb_layout.py: HoneycombLayout.obs_edges"]}
{"id": "C75", "title": "Undetected damage confined to edges needs many edges", "statement": "Damage confined to n edges (ends, ancillas, results about them) that flips the observable with no detector firing needs 2n >= data_width (V) or 3n >= data_height (H).", "quantifier": "all valid layouts, all sets of edges, all fault patterns on them", "why_tests_cant": "The patterns of faults are infinitely many.", "anchors": ["src/honeycomb_circuit.py: generate_honeycomb_circuit"]}
{"id": "C76", "title": "Circuit-level distance is at least half the reported distance", "statement": "If n errors are drawn from the noise channels of the generated circuit, no detector fires and the observable is flipped, then 2n >= data_width (V) or 3n >= data_height (H). Fewer than half of the reported code_distance errors never flip the observable undetected.", "quantifier": "all valid layouts and supported styles, all numbers and places of errors", "why_tests_cant": "The choices of errors grow exponentially with the circuit.", "anchors": ["src/honeycomb_circuit.py: generate_honeycomb_circuit", "src/honeycomb_layout.py: HoneycombLayout.as_decoder_problem_desc", "src/noise.py: NoiseModel.noisy_circuit"]}
{"id": "C77", "title": "Undetected logical errors with as many errors as the reported distance", "statement": "With noise > 0, in every style, data_width (V) or two thirds of data_height (H) errors of the noise channels can flip the observable with no detector firing. So the least such number over both observables lies between half of the reported code_distance and code_distance.", "quantifier": "all valid layouts with noise, all supported styles", "why_tests_cant": "Needs one explicit run for every size and round count.", "anchors": ["src/honeycomb_circuit.py: generate_honeycomb_circuit", "src/honeycomb_layout.py: HoneycombLayout.as_decoder_problem_desc", "src/noise.py: NoiseModel.noisy_circuit"]}
{"id": "C78", "title": "With direct parity measurements the circuit-level distance is exactly half the reported one", "statement": "With noise > 0, style EM3 or EM3_v2 and at least two sub-rounds, the least number of errors of the noise channels that flips the observable with no detector firing is data_width/2 (V), data_height/3 (H); over both observables it is exactly half of the reported code_distance.", "quantifier": "all valid layouts with noise in these two styles with at least two sub-rounds (one suffices for H)", "why_tests_cant": "Minimum over exponentially many choices of errors, for every size.", "anchors": ["src/honeycomb_circuit.py: generate_honeycomb_circuit", "src/honeycomb_layout.py: HoneycombLayout.as_decoder_problem_desc", "src/noise.py: NoiseModel.noisy_circuit, parity_measurement_with_correlated_measurement_noise"]}
{"id": "C79", "title": "The problem id selects exactly one problem", "statement": "The collection script has 1500 problems (900 without surface codes), all different. With a problem id from -n to n-1 a run collects data for problem number id mod n only; any other id raises IndexError before anything is sampled, printed or written. Without an id a run without exceptions collects data for every problem and nothing else.", "quantifier": "all problem ids, samplers, output files", "why_tests_cant": "Ids and sampler outcomes are unbounded.", "anchors": ["src/paper/main_collect_all.py: collect_data, honeycomb_problems, surface_code_problems"]}
{"id": "C80", "title": "Collecting one problem at a time gives the same data", "statement": "Running the script once per problem id, in order and with the same output file, leaves exactly the file of one run for all problems. Running it once per id in any order with separate files and reading all of them gives the same totals as reading the file of one run.", "quantifier": "all samplers, arguments, orders of the ids", "why_tests_cant": "Tests run one order with one sampler.", "anchors": ["src/paper/main_collect_all.py: collect_data", "src/collect_data.py: collect_simulated_experiment_data, read_recorded_data"]}
{"id": "C81", "title": "Limits of the collection script", "statement": "From the command line the script never divides by zero, and it always ends. With default limits and case_reduction from 1 to 4 million no problem gets more than 10^8 // case_reduction shots or more than 32768 at once; sampling stops exactly at the first batch that reaches 10^8 // case_reduction shots, 10^3 // case_reduction errors, or (with ten errors) 48% errors: the standard deviation limit never matters. Above 1000 every problem gets one batch of 25 shots only, above 4 million this exceeds the shot limit. collect_data(case_reduction=0) raises ZeroDivisionError unless both limits are given. The options max_shots, max_errors and max_batch_size of the command line, if given, replace the shot limit, the error limit and the batch size, and the same stop rule holds with them.", "quantifier": "all command line arguments and samplers", "why_tests_cant": "Arguments and sampler outcomes are unbounded.", "anchors": ["src/paper/main_collect_all.py: main, collect_data", "src/collect_data.py: collect_simulated_experiment_data"]}
{"id": "C82", "title": "Circuit diagrams show the circuit", "statement": "plot_circuit succeeds on a circuit that declares different places for its qubits and then applies drawable instructions, at most one per qubit and time step. In its text, for every time step and qubit, the cell of that qubit and step holds the letter of the instruction on the qubit (a mark if there is none), every two-qubit instruction between qubits in one row or column is a line from cell to cell, or a line ending in '~' marks if it goes around the border, and everything else is lines or blank. With only_repeat_block the same holds for one pass through the blocks. For a circuit that measures a product of three or more factors plot_circuit raises an exception.", "quantifier": "all circuits, coordinates, numbers of time steps", "why_tests_cant": "Tests compare two literal diagrams.", "anchors": ["src/circuit_diagrams.py: plot_circuit, diagram_3d, diagram_2d, _iter_circuit"]}
{"id": "C83", "title": "Noise does not change a diagram", "statement": "plot_circuit gives the same result (text or exception) for a circuit and for its noisy version under any noise model that does not expand parity measurements, if the circuit has no X basis measurements or resets and (with only_repeat_block) no nested blocks.", "quantifier": "all noise models without correlated parity noise, circuits, immune qubits", "why_tests_cant": "All circuits and noise models.", "anchors": ["src/circuit_diagrams.py: plot_circuit", "src/noise.py: NoiseModel.noisy_circuit"]}
{"id": "C84", "title": "Diagrams of the generated experiments", "statement": "For every valid layout, except EM3_v2 with noise, plot_circuit draws the generated circuit, every line of the diagram is horizontal or vertical, and with only_repeat_block it draws one pass through the one REPEAT block if there is one (from 10 sub-rounds on for EM3, 15 for PC3, 12 for SD6 and SI1000) and raises ValueError if there is none. EM3_v2 with noise cannot be drawn: the ancilla of the expanded parity measurements has no coordinates.", "quantifier": "all valid layouts, sizes, numbers of sub-rounds, styles, noise strengths", "why_tests_cant": "All sizes and numbers of sub-rounds.", "anchors": ["src/circuit_diagrams.py: plot_circuit", "src/honeycomb_circuit.py: generate_honeycomb_circuit"]}
{"id": "C85", "title": "Circuit-level distance of the styles with ancillas", "statement": "In the styles SD6, PC3 and SI1000, if no detector fires and the observable of the generated circuit is flipped, then the noise channels (two-qubit errors after the gates included) made at least data_width errors (obs V), at least data_height/2 errors (obs H). For V this is exact: data_width errors can do it. So fewer than three quarters of the reported code_distance errors never flip an observable undetected.", "quantifier": "all valid layouts of the three styles, all sizes, numbers of sub-rounds and noise strengths, all ways in which the noise channels can act", "why_tests_cant": "The number of error combinations grows exponentially with the size; sampling finds only likely ones.", "anchors": ["src/honeycomb_circuit.py: generate_honeycomb_circuit", "src/honeycomb_layout.py: HoneycombLayout.as_decoder_problem_desc", "src/noise.py: NoiseModel.noisy_circuit"]}
{"id": "C86", "title": "Figure of line fits", "statement": "For results of the collection script, plot_lambda_line_fits_combo draws its full and its focused figure without error. The panel in a row and a column shows exactly the results of the code and decoder named beside the row and the gate set named above the column: for every noise value, in increasing order, the error rates per code cell of all distances without a zero rate, and the least squares line through their logarithms, drawn from error rate 1 to 1e-13, exactly if it falls clearly. A noise value has the same marker and color in all panels, different ones differ. Every problem of the collection script has exactly one place in the full figure. The legend has the noise values of the first panel in decreasing order.", "quantifier": "all sets of results for problems of the collection script, both figures, all regressions that return a least squares line", "why_tests_cant": "All possible sets of results; tests would compare pictures for a few.", "anchors": ["src/paper/main_render_lambda_figure.py: plot_lambda_line_fits_combo", "src/paper/main_render_lambda_figure.py: LambdaGroup"]}
{"id": "C87", "title": "Figure of lambda factors", "statement": "For results of the collection script, plot_lambda_combo terminates without error with panels SD6, SI1000 and EM3. A panel has one curve for every pair of style and decoder of its gate set that has results, with the same label and marker for a kind of code and decoder in all panels. A curve has a point for exactly the noise values at which the fitted errors fall clearly, in increasing order. Its value is the factor by which the fitted error rate falls per two steps of distance; the band ends at the factors of the two slopes whose best lines cost 1 more than the fit and contains the point. Points that rest on fewer than three distances are not marked (a bug: have_any_poor is never set).", "quantifier": "all sets of results for problems of the collection script, all optimisers and regressions that minimise", "why_tests_cant": "All possible sets of results; the searches for the band are not structurally bounded.", "anchors": ["src/paper/main_render_lambda_figure.py: plot_lambda_combo", "src/paper/main_render_lambda_figure.py: LambdaGroup"]}
{"id": "C88", "title": "Figure of teraquop qubit counts", "statement": "For results of the collection script, plot_teraquop_combo terminates without error with panels and curves as in C87. The value of a point is the number of qubits of the code with the smallest distance at which the fitted error rate reaches 1e-12; the band ends at the qubit counts of the two distances whose best lines, in the regression of distance on logarithmic error rate, cost 1 more than the best one. Marked are exactly the points that rest on fewer than three distances. The band need not contain the point (shown by an example), because point and band come from different regressions.", "quantifier": "all sets of results for problems of the collection script, all optimisers and regressions that minimise", "why_tests_cant": "All possible sets of results; the searches for the band are not structurally bounded.", "anchors": ["src/paper/main_render_lambda_figure.py: plot_teraquop_combo", "src/paper/main_render_lambda_figure.py: LambdaGroup"]}
{"id": "C89", "title": "Decoding corrects few errors", "statement": "A decoder that always predicts what happens in some sample with the given detector bits and the fewest errors (a minimum error decoder; every circuit has one) predicts the observables of a generated circuit correctly whenever fewer than a quarter of data_width (observable V) or a sixth of data_height (H) errors happened, whichever errors of the noise channels they were. In styles SD6, PC3 and SI1000 fewer than half of data_width (V) or a quarter of data_height (H) suffice. In terms of the reported code distance: fewer than a quarter of it, or three eighths of it in these styles. With such a decoder sample_decode_count_correct counts every shot as correct if so few errors happened in each.", "quantifier": "all layout sizes, styles, observables, numbers of sub-rounds and noise strengths; all combinations of errors of the noise channels; all minimum error decoders; all numbers of shots", "why_tests_cant": "The number of combinations of errors grows with the size of the circuit to the power of the number of errors.", "anchors": ["src/honeycomb_circuit.py: generate_honeycomb_circuit", "src/noise.py: NoiseModel.noisy_circuit", "src/decoding.py: sample_decode_count_correct"]}
{"id": "C90", "title": "No decoder corrects more", "statement": "With positive noise in styles EM3 and EM3_v2, the least number of errors that a minimum error decoder gets wrong is a quarter of data_width (V) or a sixth of data_height (H), rounded up, and every decoder whatsoever gets some sample with at most so many errors wrong. In styles SD6, PC3 and SI1000 the least number for V is half of data_width, rounded up. In every style every decoder gets some sample with at most half of data_width (V) or a third of data_height (H) errors, rounded up, wrong.", "quantifier": "all layout sizes, numbers of sub-rounds and positive noise strengths, all functions from detector bits to observable bits", "why_tests_cant": "It speaks about all decoders and all sizes.", "anchors": ["src/honeycomb_circuit.py: generate_honeycomb_circuit", "src/noise.py: NoiseModel.noisy_circuit", "src/decoding.py: sample_decode_count_correct"]}
{"id": "C91", "title": "Collected data can always be shown", "statement": "Take any csv files that runs of main_collect_all.py with an output file left behind: any number of runs per file, each with its own arguments (a positive batch size, if one is given), finished, ended by an exception, or killed at any point other than between the creation of the file and its header. Then the threshold script, the detection fraction script and the lambda script, given these files or their directories, raise no exception. All figures show the same totals: those of all batches of all runs, except possibly the last batch of each run that was killed. Floats must be written so that they read back unchanged, and the sampler must return counts between 0 and the number of shots.", "quantifier": "all numbers of files and runs, all arguments of each run, all outcomes of sampling, all crash points but one, all command lines", "why_tests_cant": "It speaks about all histories of runs and crashes and about every figure drawn from what they leave.", "anchors": ["src/paper/main_collect_all.py: collect_data", "src/collect_data.py: collect_simulated_experiment_data, read_recorded_data", "src/paper/main_render_threshold_figure.py: main", "src/paper/main_render_detection_fraction_figure.py: main", "src/paper/main_render_lambda_figure.py: main"]}
{"id": "C92", "title": "Command lines of the figure scripts", "statement": "Without arguments the scripts raise a ValueError. Otherwise they read the named files and the csv files in named directories (the aggregating script also those further below) and work with the sums over all rows of these files, whatever the order of the arguments. The first file that cannot be opened ends the script. Directories without csv files are no error. A file counts as often as it is named: naming everything twice, or a file together with its directory, doubles the counts.", "quantifier": "all command lines, file systems and file contents", "why_tests_cant": "There are unboundedly many command lines and directory contents.", "anchors": ["src/paper/main_render_threshold_figure.py: main", "src/paper/main_render_detection_fraction_figure.py: main", "src/paper/main_render_lambda_figure.py: main", "src/paper/aggregate_csv_data.py: main", "src/collect_data.py: read_recorded_data"]}
{"id": "C93", "title": "The example script", "statement": "With a sampler that works, main_example.py ends without an exception, whatever test.csv held before. Afterwards test.csv holds data for sizes 4x6 and 8x12 at noise 0.001, 0.002 and 0.003 and nothing else. Every problem has between a thousand and a million shots and met a stop condition of the collection. The plot has exactly two curves, one per size, which show these totals.", "quantifier": "all outcomes of sampling, all previous contents of the file", "why_tests_cant": "The sampled counts are random; every outcome has to lead to a plot.", "anchors": ["src/main_example.py: main", "src/collect_data.py: collect_simulated_experiment_data", "src/plotting.py: plot_data"]}
{"id": "C94", "title": "Surface code circuits for the comparison", "statement": "The circuit of a surface code problem of the collection script is the circuit of one file with noise added. Each noise model, observable and distance has a file of its own, whatever the directory, and the decoder does not matter. A file that cannot be read is reported first, an unknown noise name is refused. A noiseless file is accepted exactly when it consists of gates that the noise model supports. Removing the noise of the result gives the file back; measurements, detectors and observables are unchanged; at noise 0 nothing is added. An explicit identity gate gets the noise of an idle qubit. Idle noise on qubit indices that a file leaves out cannot be observed: the records that can be sampled with n errors are those that can be sampled with at most n errors when only the used qubits idle, and conversely.", "quantifier": "all directories, file contents, noise strengths, qubit sets that contain the used qubits, records and numbers of errors", "why_tests_cant": "The files are inputs, and that noise on an unused qubit never matters is a statement about all combinations of errors.", "anchors": ["src/paper/main_collect_all.py: surface_code_circuit, surface_code_problem, surface_code_problems", "src/noise.py: NoiseModel.noisy_circuit"]}
{"id": "C95", "title": "What a row of the data counts", "statement": "Batch number k of a decoding problem is the result of call number k of sample_decode_count_correct with the circuit of that problem: its shots were sampled from that circuit, the decoder got the detector bits of every shot and nothing else, and num_correct is the number of shots whose observables were all predicted correctly, so it lies between 0 and num_shots. In the collection script the circuit is the one that the row describes: the circuit of the described honeycomb layout, or the described surface code file with the described noise. All honeycomb circuits of the script can be made, and the script comes to its end if the surface code files can be used, the sampler returns shots and the decoder returns predictions; the files it writes are those of C91. Without noise no logical error is ever recorded (for a decoder that predicts no flip when no detector fires), and exactly max_shots shots are taken; with a minimum error decoder none is recorded as long as fewer than a quarter of data_width (V), a sixth of data_height (H) errors happen per shot.", "quantifier": "all lists of problems, all samplers, decoders and clocks, all script arguments, file contents and previous files; for the runs without errors all valid layouts of the supported styles", "why_tests_cant": "The statement connects circuit generation, noise, sampling, decoding and recording for every random outcome; a test sees a few shots of a few circuits.", "anchors": ["src/honeycomb_layout.py: HoneycombLayout.as_decoder_problem, HoneycombLayout.make_circuit", "src/collect_data.py: collect_simulated_experiment_data, DecodingProblem", "src/decoding.py: sample_decode_count_correct", "src/paper/main_collect_all.py: collect_data, honeycomb_problems, surface_code_problems"]}
{"id": "C96", "title": "How few errors defeat the horizontal observable in the styles with ancillas", "statement": "With noise, observable \"H\" and at least six sub-rounds, in the styles \"SD6\", \"PC3\" and \"SI1000\", the least number of errors of the noise channels that flip the observable with no detector firing is exactly half of data_height. On a layout that is not taller than its distance requires this is three quarters of the code_distance that as_decoder_problem_desc reports: the two-qubit errors behind the controlled gates of one time step suffice. Accordingly the least number of errors that a minimum error decoder gets wrong is a quarter of data_height, rounded up, and no decoder at all is right for every sample with at most that many errors.", "quantifier": "every valid layout, every number of sub-rounds from six on, every noise strength above zero, every sample of the circuit with any number of errors, every decoder", "why_tests_cant": "a minimum over all sets of errors of circuits of unbounded size; sampling practically never draws such a set, and the set that attains the bound involves data qubits and ancillas of one time step together", "anchors": ["src/honeycomb_circuit.py: generate_honeycomb_circuit", "src/honeycomb_layout.py: HoneycombLayout.as_decoder_problem_desc", "src/noise.py: NoiseModel.noisy_circuit"]}
{"id": "C97", "title": "The symptom of a fault is small and local", "statement": "In a run of the generated circuit with n single-qubit Pauli faults on data qubits, anywhere between the instructions, and w results reported wrongly, at most 4(n+w) detectors fire: no data fault and no wrong result has a symptom of more than four detectors. Every detector fired by data faults is, by its coordinates, at a face or an edge of one of the faulty qubits, and the layers of the detectors due to one fault are within three of each other.", "quantifier": "every valid layout of the supported styles, any number of sub-rounds, every placement of any number of faults, every choice of wrong results", "why_tests_cant": "quantifies over all places of any number of faults in circuits of unbounded size; sampling sees only a few of them, and a detector with a wrong reach would still be deterministic without noise", "anchors": ["src/honeycomb_circuit.py: generate_honeycomb_circuit", "src/honeycomb_layout.py: HoneycombLayout.make_circuit"]}
{"id": "C98", "title": "Two logical qubits survive the memory (double EPR experiment)", "statement": "generate_double_epr_honeycomb_circuit measures four pairwise commuting parities X1*Xa, Z1*Za, X2*Xb, Z2*Zb of the two logical qubits and two ancillas, then only edge parities of the code, never touching an ancilla, then the same four parities of the operators the logical qubits have become. If no error is drawn, no detector fires and all four observables keep their value, in every run. Every sub-round from the seventh on checks a third of the hexagons. The last sub-round is noisy although nothing checks it, so one error can flip an observable with no detector firing.", "quantifier": "every valid layout with style EM3, any number of sub-rounds, any noise, every run (all random measurement results)", "why_tests_cant": "the test samples one layout with 100 sub-rounds and accepts a few failures; it cannot show that the parities are conserved for every size and duration, and it does not notice the unprotected last sub-round", "anchors": ["src/honeycomb_circuit_double_epr_test.py: generate_double_epr_honeycomb_circuit", "src/honeycomb_circuit_double_epr_test.py: measure_obs_anc_parities"]}
{"id": "C99", "title": "Faults on data qubits decompose into edges of a matching graph", "statement": "Every combination of n single-qubit Pauli faults on data qubits, anywhere in the generated circuit, flips exactly the detectors and the logical observable that some collection of at most 2n single faults on the same qubits flips together, where each of these single faults, on its own, fires at most two detectors. The same holds for everything the noise channels can do (errors on ancillas, two-qubit errors and wrong results included): n errors happen near at most n edges, and single data faults at the ends of these edges, each firing at most two detectors, explain them. So a decoder that only knows errors with one or two symptoms can explain every sample, which is what decomposing the error model for matching relies on.", "quantifier": "every valid layout of the supported styles, any number of sub-rounds, any noise, every placement of any number of faults, every sample (all random results)", "why_tests_cant": "quantifies over all places of any number of faults in circuits of unbounded size; a decomposition that exists for the sizes tried may not exist near the boundaries in time of another style or duration", "anchors": ["src/honeycomb_circuit.py: generate_honeycomb_circuit", "src/honeycomb_layout.py: HoneycombLayout.make_circuit", "src/decoding.py: sample_decode_count_correct"]}
{"id": "C100", "title": "The error model always decomposes into edges of a matching graph that are errors of the model themselves", "statement": "For every noisy generated circuit and every set of n errors its noise channels can make (errors on ancillas, two-qubit and correlated errors and wrong results included), there is a collection of single errors of the noise channels of the same circuit, each of which fires at most two detectors on its own, that together flip exactly the same detectors and the same observable. So asking for the decomposed detector error model, as every decoder of the project does, can always succeed using edges that exist in the model.", "quantifier": "every valid layout of the supported styles with positive noise strength, any number of sub-rounds, any number of noise channel errors, every sample (all random results)", "why_tests_cant": "the existing test asks for the decomposition at a few small sizes; that every symptom of every channel, at every place near the boundaries in time and for every style and duration, is a sum of one- and two-detector symptoms which occur in the same model is a statement about circuits of unbounded size", "anchors": ["src/decoding.py: sample_decode_count_correct", "src/honeycomb_circuit.py: generate_honeycomb_circuit", "src/noise.py: NoiseModel.noisy_circuit"]}
{"id": "C101", "title": "Every detector watches something", "statement": "For every detector of a generated circuit with noise there is a single error of the circuit's noise channels that fires this detector and at most one other detector. With or without noise, there is a single Pauli fault on a data qubit that fires it and at most one other.", "quantifier": "every valid size, style, observable, noise level (positive for the first part) and sub-round count >= 1, every detector index", "why_tests_cant": "A detector that no error can fire passes the noiseless tests; that each one does fire, at every size and round, is a statement about infinitely many circuits.", "anchors": ["src/honeycomb_circuit.py: generate_honeycomb_circuit, _sub_round_measurements_and_detectors, fault_tolerant_measurement", "src/noise.py: NoiseModel.noisy_circuit"]}
{"id": "C102", "title": "A minimum weight matching is a most likely explanation", "statement": "Take an error model whose components have probability below 1 and at most two detectors, and in which components on the same edge flip the same observables. If every component happens independently with its probability, then the probability that exactly the edges of a set T of edges of detector_error_model_to_nx_graph are hit an odd number of times is a constant times exp(-total weight of T). What the components do to the detectors and observables is what these edges do: the detectors that fire are those with an odd number of ends, the observables that flip those in the qubit_id of an odd number of edges. Hence a set of edges of least weight among those that explain given detection events is a most likely one; this also holds for the graph of detector_error_model_to_pymatching_graph with its extra edges, if no probability exceeds 1/2 and the weights of the model's edges together stay below 9999999999.", "quantifier": "every such error model, every set of edges, every set of detection events", "why_tests_cant": "The repository checks the edges of a few small graphs; that the weights make matching optimal is a statement about all subsets of edges of all models.", "anchors": ["src/decoding.py: detector_error_model_to_nx_graph, detector_error_model_to_pymatching_graph"]}
{"id": "C103", "title": "Texts that stand for layouts, edges and lookups", "statement": "HoneycombLayout.legend_label raises ValueError for every layout with noise (a wrong format specification); without noise, two layouts have the same label exactly when they have the same number of rounds, width and height. repr of two edges is equal exactly when they have the same center and the same two ends, in whatever order the ends were given. repr of two Prev lookups of keys with different reprs is equal exactly when key and offset are equal, and a Prev of a Prev shows the sum of the offsets.", "quantifier": "all layouts, all edges between points with half-integer coordinates, all keys and offsets", "why_tests_cant": "a test shows the text of a few layouts and edges; that no two different ones share a text is a statement about all pairs", "anchors": ["src/honeycomb_layout.py:HoneycombLayout.legend_label", "src/honeycomb_layout.py:Edge.__repr__", "src/measure_tracker.py:Prev.__repr__"]}
{"id": "C104", "title": "The matching decoder corrects few errors", "statement": "Take a generated circuit with noise that needs more than two errors to flip the observable undetected, and an error model whose components are the symptoms, with at most two detectors, of single errors of its noise channels, containing all of these. Then detector_error_model_to_nx_graph succeeds, components on the same edge agree about the observables (so C102 applies), every detector has an edge, every sample is explained by edges, and edges that together fire no detector but flip the observable are at least as many as the circuit-level distance (data_width or data_height/2 with ancillas, data_width/2 or data_height/3 for EM3 and EM3_v2). If pymatching finds matchings of least weight, decode_using_pymatching predicts the observables of every sample correctly whose explaining edges weigh less than half of that distance times the lightest edge, and sample_decode_count_correct counts all such samples as correct. The graph that write_honeycomb_networkx_graph.py saves has 152 detectors, each with an edge, and distance at least 3.", "quantifier": "all valid layouts, styles, observables and noise levels with that distance, all such error models, all samples, all minimum weight decoders", "why_tests_cant": "tests decode random samples; that no sample below the bound is decoded wrongly ranges over all sets of errors of circuits of every size", "anchors": ["src/decoding.py:detector_error_model_to_nx_graph", "src/decoding.py:detector_error_model_to_pymatching_graph", "src/decoding.py:decode_using_pymatching", "src/decoding.py:sample_decode_count_correct", "src/honeycomb_circuit.py:generate_honeycomb_circuit", "src/paper/write_honeycomb_networkx_graph.py:main"]}
{"id": "C105", "title": "The matching graph has exactly two connected components", "statement": "The detectors of a generated circuit fall into two halves: the final detectors together with those of every other layer before them (odd sub-rounds for \"V\", even ones for \"H\"), and the rest. Whatever errors the noise channels make, an even number of detectors of the first half fires. For every error model whose components are the symptoms, with at most two detectors, of single errors of the noise channels, the nodes of detector_error_model_to_nx_graph are the detectors and the boundary node, and two nodes are connected by edges exactly when both or neither belong to the first half: the graph has exactly two connected components, with the boundary in the second. The first half is never empty; the second half has data_width * data_height / 6 detectors for every other sub-round from the fifth (\"V\") or the sixth (\"H\") on.", "quantifier": "all valid layouts, styles, observables, numbers of sub-rounds and non-zero noise levels, all such error models, all samples", "why_tests_cant": "the repository's test counts the components for one size, one observable and 99 sub-rounds; connectivity on every torus, for every number of sub-rounds and both observables is out of reach of tests", "anchors": ["src/decoding_test.py:test_graph_has_two_connected_components", "src/decoding.py:detector_error_model_to_nx_graph", "src/honeycomb_circuit.py:generate_honeycomb_circuit"]}
{"id": "C106", "title": "What goes wrong is noticed in its own time and forgotten soon after", "statement": "Cut the instructions of a generated circuit in three parts and let anything happen during the second part: its results may be arbitrary and so may the state of all qubits after it. No detector fires whose sub-round was over before the second part began, and no detector fires more than a fixed number of sub-rounds after the second part ended: 4 for \"EM3\" and \"EM3_v2\", 6 for \"SD6\" and \"SI1000\", 8 for \"PC3\". In particular this holds for any number of errors of the noise channels and measurements of the second part, if the other two parts make none.", "quantifier": "all valid layouts, styles, observables, numbers of sub-rounds and noise levels, all ways to cut the circuit, all results and states of the second part", "why_tests_cant": "the places, the lengths and the effects of a disturbance are unlimited, and the pipelined styles carry ancillas over from sub-round to sub-round; no test of the repository injects errors at all", "anchors": ["src/honeycomb_circuit.py:generate_honeycomb_circuit", "src/honeycomb_layout.py:HoneycombLayout", "src/measure_tracker.py:MeasurementTracker", "src/noise.py:NoiseModel"]}
{"id": "C107", "title": "Errors are noticed where and when they happen", "statement": "If everything inside a region of the torus goes wrong during the whole experiment, only detectors whose coordinates are those of a face or an edge with a data qubit in the region fire. For any n errors of the noise channels and measurements of a generated circuit there are n places, each an edge and a sub-round, such that every detector that fires is, for one of the places, at a face or an edge of an end of the place's edge, and in one of the layers from the place's sub-round on to 4 (\"EM3\", \"EM3_v2\"), 6 (\"SD6\", \"SI1000\") or 8 (\"PC3\") later. So errors far apart in space or time do not affect the same detectors.", "quantifier": "all valid layouts, styles, observables, numbers of sub-rounds and noise levels, all regions and any damage in them, any number of errors at any places", "why_tests_cant": "the sizes of the circuits and the numbers and places of the errors are unlimited; a test can inject only a few errors in a few circuits", "anchors": ["src/honeycomb_circuit.py:generate_honeycomb_circuit", "src/honeycomb_layout.py:HoneycombLayout", "src/measure_tracker.py:MeasurementTracker", "src/noise.py:NoiseModel"]}
{"id": "C108", "title": "Which detection events can happen", "statement": "In a generated circuit with noise, the patterns of detection events that can be sampled are exactly those in which an even number of the detectors fires that are in the final layer or in one of every other layer before it (odd sub-rounds for \"V\", even ones for \"H\"); these are exactly half of all patterns. So there is no other relation between detectors that holds for every sample. Whatever detection events were sampled, the logical observable may have been flipped or not: both happen with the same detection events, so every decoder's prediction for any sample can be wrong.", "quantifier": "all valid layouts of the supported styles, observables and numbers of sub-rounds with noise, all patterns of detection events, any number of errors", "why_tests_cant": "there are exponentially many patterns, most of which need many errors and are never sampled", "anchors": ["src/honeycomb_circuit.py:generate_honeycomb_circuit", "src/decoding.py:sample_decode_count_correct", "src/measure_tracker.py:MeasurementTracker"]}
{"id": "C109", "title": "The logical error rate is suppressed, and never zero", "statement": "When the detector sampler's probabilities are taken into account (every target of a noise channel has an error independently with the probability argument of its instruction, depolarizing channels draw uniformly, measurement results are flipped with their probability argument), the probability that a minimum error decoder predicts the logical observable of a generated circuit wrongly is at most C(M, k) * q^k. Here M is the number of places of the circuit where an error can happen, q is the largest probability of an error (noise; 5 * noise in SI1000), and k is a quarter of data_width (\"V\") or a sixth of data_height (\"H\"), rounded up; in the styles with ancillas half of data_width or a quarter of data_height. So for a patch of given size the logical error rate is of the order noise^k. It is zero without noise. With noise no decoder at all has a logical error rate of zero. The records with positive probability are exactly those that the circuit can produce with some errors of its channels.", "quantifier": "all valid layouts of the supported styles, observables and numbers of sub-rounds, all noise strengths, all decoders (minimum error decoders for the upper bound), all initial frames", "why_tests_cant": "the rate of rare events cannot be sampled, and a bound on a probability for every size and noise strength is not a finite set of runs", "anchors": ["src/honeycomb_circuit.py:generate_honeycomb_circuit", "src/noise.py:NoiseModel", "src/decoding.py:sample_decode_count_correct"]}
{"id": "C110", "title": "There is a threshold", "statement": "There are a noise strength p0 > 0 and a constant C, the same for all patches, durations, observables and styles, such that, if the largest probability q of an error (noise; 5 * noise in SI1000) is at most p0 / 2, the probability that a minimum error decoder predicts the logical observable of the generated circuit wrongly is at most C * sub_rounds * num_qubits * (q / p0)^k. Here k is a quarter of data_width (\"V\") or a sixth of data_height (\"H\"), rounded up; in the styles with ancillas half of data_width or a quarter of data_height. So below the threshold larger patches are better, exponentially in their size: the logical error rate of experiments whose volume is at most a given power of the size tends to zero as the size grows.", "quantifier": "all valid layouts of all five styles, both observables, all numbers of sub-rounds, all noise strengths below p0 / 2, all minimum error decoders, all initial frames; p0 and C do not depend on any of them", "why_tests_cant": "the threshold is a statement about the limit of arbitrarily large patches; benchmarks can only extrapolate from a few sizes", "anchors": ["src/honeycomb_circuit.py:generate_honeycomb_circuit", "src/honeycomb_layout.py:HoneycombLayout", "src/noise.py:NoiseModel", "src/decoding.py:sample_decode_count_correct"]}
{"id": "C111", "title": "Minimum weight matching has a threshold", "statement": "Minimum weight matching in the graph that the code builds from the error model has a threshold, although matching ignores that one physical error can fire more than two detectors. There is a number K, the same for all patches, durations, observables and styles, such that whatever n errors of the noise channels do, at most K * n edges of the matching graph do: they fire the same detectors and flip the same observables. For every c there are a noise strength p0 > 0 and numbers A and C, the same for all patches, durations, observables and styles, such that, if the largest probability q of an error (noise; 5 * noise in SI1000) is at most p0 / 2 and the error probabilities of all edges of the graph are between q / c and c * q (or: the weights differ by at most a given factor), the probability that decoding with a matching of least weight predicts the logical observable of the generated circuit wrongly is at most C * sub_rounds * num_qubits * (q / p0)^k, where k is the part 1 / A of the circuit distance. There is an error model with this property for every patch. Below p0 / 2 the probability of a wrong prediction tends to zero when the patch grows and num_qubits * sub_rounds stays below a polynomial of its size.", "quantifier": "all valid layouts of all five styles with circuit distance above 2, both observables, all numbers of sub-rounds, all noise strengths below p0 / 2, all error models whose components are errors of the circuit, all matchings of least weight, all initial frames; K, p0, A and C do not depend on any of them", "why_tests_cant": "the threshold is a statement about the limit of arbitrarily large patches; benchmarks can only extrapolate from a few sizes", "anchors": ["src/decoding.py:detector_error_model_to_nx_graph", "src/decoding.py:sample_decode_count_correct", "src/honeycomb_circuit.py:generate_honeycomb_circuit", "src/noise.py:NoiseModel"]}
{"id": "C112", "title": "The probabilities of the matching graph follow from the noise of the circuit", "statement": "If the error model comes from the circuit as stim's error analysis makes it (every line stands for errors of the noise channels that fire its detectors, no error belongs to two lines, a place where a channel acts has at most fifteen errors, each with a probability between a hundredth of that of an error at this place and the whole of it, and the probability of a line is that of an odd number of its errors), then all edges of the matching graph are about equally likely: there is a number c, the same for all patches, durations, observables and styles, such that every edge has an error probability between q / c and c * q, where q is the largest probability of an error (noise; 5 * noise in SI1000). No detector has more than a fixed number of neighbours in the graph. Hence minimum weight matching has a threshold without any assumption on the edges, and below it large patches are reliable. Every generated circuit has such an error model, in which every detector occurs.", "quantifier": "all valid layouts of all five styles with circuit distance above 2, both observables, all numbers of sub-rounds, all noise strengths with q at most 1 / 2 (for the threshold: p0 / 2), all error models that come from the circuit in this way, all matchings of least weight, all initial frames; c, p0 and the other constants do not depend on any of them", "why_tests_cant": "a bound that is the same for all sizes cannot be seen from finitely many graphs", "anchors": ["src/decoding.py:detector_error_model_to_nx_graph", "src/noise.py:NoiseModel", "src/honeycomb_circuit.py:generate_honeycomb_circuit"]}
{"id": "C113", "title": "No decoder is better than the distance allows", "statement": "Whatever a decoder does with the detectors, its prediction of the logical observable of the generated circuit is wrong with a probability of at least (q / 750)^k / 2, where q is the largest probability of an error (noise; 5 * noise in SI1000; at most 1 / 2) and k is half of the circuit distance, rounded up (at least six sub-rounds; for any number of sub-rounds, k is half of data_width for V, a third of data_height for H, rounded up). More generally, if n errors of the noise channels can flip the observable with no detector firing, k can be half of n, rounded up. Together with the threshold: below it, the logical error rate of minimum weight matching falls exponentially with the circuit distance, and no faster. So a larger distance is the only way to a lower logical error rate at a given noise strength.", "quantifier": "all valid layouts of all five styles, both observables, all numbers of sub-rounds (as stated), all noise strengths with q at most 1 / 2, all functions from detection events to predictions, all initial frames", "why_tests_cant": "it is about all decoders, and sampling cannot bound a rare event from below for all sizes", "anchors": ["src/honeycomb_circuit.py:generate_honeycomb_circuit", "src/noise.py:NoiseModel", "src/decoding.py:sample_decode_count_correct"]}
{"id": "C114", "title": "The detection fraction is proportional to the noise", "statement": "There is a constant C, the same for all patches, durations, observables and styles, such that every detector of a generated circuit fires with a probability of at most C * q, where q is the largest probability of an error (noise; 5 * noise in SI1000). With noise and q at most 1 / 2 every detector fires with a probability of at least q / 1500. So the mean number of detection events in a shot, divided by the number of detectors (the detection fraction that collect_detection_fraction_data measures), lies between q / 1500 and C * q whatever the size of the patch and the duration of the experiment; without noise it is 0.", "quantifier": "all valid layouts of all five styles, both observables, all numbers of sub-rounds, all noise strengths (as stated), all detectors, all initial frames", "why_tests_cant": "sampling estimates the fraction of some circuits; a bound for circuits of all sizes with one constant is not testable", "anchors": ["src/honeycomb_circuit.py:generate_honeycomb_circuit", "src/noise.py:NoiseModel", "src/collect_data.py:collect_detection_fraction_data"]}
{"id": "C115", "title": "Error bands contain the true error rate with the stated confidence", "statement": "Fix a number n of shots and a likelihood ratio r. For n independent shots of a circuit, let the bounds be what likely_error_rate_bounds(desired_ratio_vs_max_likelihood=r) computes from the count that sample_decode_count_correct returns. The probability that the circuit's true logical error rate under the decoder lies more than one grid step 1 / (100 n) outside the bounds is at most 2 r. For the bands of the figures (r = 1e-3) the band contains the true rate with a probability of at least 99.8 percent, for every generated circuit, decoder and number of shots.", "quantifier": "all distributions of shots, all circuits, all decoders (functions from detection bits to observable bits), all numbers of shots fixed in advance, all positive likelihood ratios", "why_tests_cant": "coverage is a statement about the distribution of the result for every true error rate in [0, 1]; tests see the bounds of a few counts", "anchors": ["src/collect_data.py:ShotData.likely_error_rate_bounds", "src/plotting.py:plot_data", "src/decoding.py:sample_decode_count_correct", "src/probability_util.py:log_binomial"]}
{"id": "C116", "title": "The reported logical error rate converges to the true one", "statement": "For n independent shots of a circuit, the logical_error_rate of the collected ShotData is an unbiased estimate of the probability p that the decoder is wrong in a shot (its mean is p), and the probability that it differs from p by e or more is at most 1 / (4 n e^2), where the number of correct shots is what sample_decode_count_correct returns.", "quantifier": "all distributions of shots, all circuits, all decoders (functions from detection bits to observable bits), all numbers of shots fixed in advance, all deviations e > 0", "why_tests_cant": "a statement about the distribution of the result for all error rates and numbers of shots", "anchors": ["src/collect_data.py:ShotData.logical_error_rate", "src/decoding.py:sample_decode_count_correct"]}
{"id": "C117", "title": "Stopping when enough errors were seen does not spoil the data", "statement": "collect_simulated_experiment_data decides from the results of the batches so far whether to go on. Let its sampler draw independent shots that are wrong with probability p, and let the limits be positive. The mean number of errors it records is p times the mean number of shots it records. If a run has at most K batches (K with max_shots <= (2^K - 1) * min_shots if max_batch is not given), the bounds that likely_error_rate_bounds(desired_ratio_vs_max_likelihood=r) computes from everything recorded miss p by more than a grid step with a probability of at most 2 r K, and the recorded logical_error_rate differs from p by e or more with a probability of at most K / (4 m e^2), where m = min(min_shots, max_batch) is the size of the first batch. The mean of the recorded logical_error_rate itself is in general not p: stopping early after errors biases the ratio upwards in small runs (with min_shots = 1, max_shots = 2, min_seen_logical_errors = 1 and p = 1/2 it is 5/8).", "quantifier": "all distributions of shots, all circuits and decoders, all positive limits of the collection function, all likelihood ratios and deviations, all running times", "why_tests_cant": "a statement about the distribution over all possible runs of an adaptive loop", "anchors": ["src/collect_data.py:collect_simulated_experiment_data", "src/collect_data.py:ShotData.likely_error_rate_bounds", "src/collect_data.py:ShotData.logical_error_rate", "src/main_example.py"]}
{"id": "C118", "title": "Recorded detection fractions estimate the true ones", "statement": "For n independent shots of a circuit with detectors, the mean of the fraction (errors divided by shots of the recorded row) that collect_detection_fraction_data records is the mean number of detectors that fire in a shot, divided by the number of detectors. For generated circuits with noise it therefore lies between q / 1500 and C * q, where q is the largest probability of an error (at most 1 / 2) and C is one constant for all patches, durations, observables, styles and numbers of shots.", "quantifier": "all circuits (first part), all valid layouts of all five styles (second part), all numbers of shots, all noise strengths (as stated)", "why_tests_cant": "a statement about the distribution of the recorded value for circuits of all sizes", "anchors": ["src/collect_data.py:collect_detection_fraction_data", "src/collect_data.py:ShotData.logical_error_rate"]}
{"id": "C119", "title": "The likelihood bounds delimit the likely error rates up to a grid step", "statement": "For h errors in n shots and a ratio r, let L(p) be the probability of exactly h errors at error rate p. Every rate more than a grid step 1 / (100 n) outside the bounds of likely_error_rate_bounds has L(p) at most r * L(h / n), and every rate more than a grid step inside them has L(p) at least r * L(h / n). If there were no errors and r is at most 1, the lower bound is 0 and the upper bound differs from 1 - r^(1 / n) by at most a grid step.", "quantifier": "all numbers of shots (at least 1), all numbers of errors, all positive ratios, all rates in [0, 1]", "why_tests_cant": "a statement about a continuum of rates for every number of shots and errors; tests compare a few outputs", "anchors": ["src/collect_data.py:ShotData.likely_error_rate_bounds"]}
{"id": "C120", "title": "A smaller likelihood ratio never narrows the error bars", "statement": "For the same shot data and ratios r1 <= r2, the interval of likely_error_rate_bounds for r1 contains the interval for r2: its lower bound is at most and its upper bound at least that for r2, exactly, in spite of the rounding to the grid.", "quantifier": "all numbers of shots (at least 1), all numbers of errors, all pairs of positive ratios", "why_tests_cant": "relates the results of two searches for every pair of ratios; tests compare two ratios at a few counts", "anchors": ["src/collect_data.py:ShotData.likely_error_rate_bounds", "src/probability_util.py:binary_search"]}
{"id": "C121", "title": "Error bars shrink like one over the square root of the shots", "statement": "Each of the two bounds of likely_error_rate_bounds for n shots and ratio r differs from the observed error rate by at most sqrt(ln(1 / r) / (2 n)) plus a grid step 1 / (100 n).", "quantifier": "all numbers of shots (at least 1), all numbers of errors, all positive ratios (for ratios above 1 the root is 0)", "why_tests_cant": "a bound for every number of shots; the test of shrinking bounds checks four numbers of shots at one rate", "anchors": ["src/collect_data.py:ShotData.likely_error_rate_bounds", "src/collect_data_test.py:test_likely_error_rate_bounds_shrink_towards_half"]}
{"id": "C122", "title": "Ranges of line fits are the textbook confidence ranges", "statement": "Let S be the sum of squared distances of the xs from their average m, and c the cost increase. The ends of least_squares_slope_range lie on both sides of the fitted slope at distances d with |d^2 * S - c| <= 1e-5. The ends of least_squares_output_range lie on both sides of the fitted value at distances d with |d^2 / (1 / n + (target_x - m)^2 / S) - c| <= 1e-5. Given that scipy's linregress and leastsq return minimisers.", "quantifier": "all data sets with two different xs, all target positions and cost increases, every optimiser that minimises", "why_tests_cant": "a closed form for real-valued data sets of every size; tests compare a few outputs", "anchors": ["src/probability_util.py:least_squares_slope_range", "src/probability_util.py:least_squares_output_range", "src/probability_util.py:binary_intercept"]}
{"id": "C123", "title": "Plotted per-cell error rates converge to the true ones", "statement": "total_error_to_per_piece_error is increasing on [0, 1], and for total rates a <= b the k-th power of the difference of the rates per piece (k pieces) is at most 2 * (b - a). So for n independent shots the value that the figures compute from the recorded data differs from the one for the true error rate by eps or more with probability at most 1 / (n * eps^(2 k)).", "quantifier": "all total error rates in [0, 1], all numbers of pieces (at least 1), all distributions of shots, all numbers of shots (at least 1), all positive eps. (Figures leave out the point of a problem without errors.)", "why_tests_cant": "a statement about the distribution of the plotted value and about all pairs of real rates", "anchors": ["src/plotting.py:total_error_to_per_piece_error", "src/plotting.py:plot_data", "src/collect_data.py:ShotData.logical_error_rate"]}
{"id": "C124", "title": "Fitted trends are close to the law that the data follow", "statement": "If the logarithms of the combined error rates of a group with n >= 2 listed distances are within delta of s * distance + c, then the fitted slope m satisfies (m - s)^2 * S <= n * delta^2, and at every distance t the logarithm of projected_error differs from s * t + c by at most delta * sqrt(1 + n * (t - mean)^2 / S), where mean and S are the average and the spread (sum of squared deviations) of the distances. Data that follow an exponential law exactly are extrapolated exactly: projected_error is the law, and projected_distance is its inverse.", "quantifier": "all groups of recorded data with consistent tables and at least two listed distances, all laws, all tolerances, all distances, every regression that returns the best line", "why_tests_cant": "real-valued laws and arbitrary data sets", "anchors": ["src/paper/main_render_lambda_figure.py:LambdaGroup.linear_fit_d_to_log_err", "src/paper/main_render_lambda_figure.py:LambdaGroup.projected_error", "src/paper/main_render_lambda_figure.py:LambdaGroup.projected_distance"]}
{"id": "C125", "title": "Recorded detection fractions converge to the true ones", "statement": "For n independent shots of a circuit with detectors, the fraction (errors divided by shots of the recorded row) that collect_detection_fraction_data records differs from the mean number of detectors that fire in a shot, divided by the number of detectors, by eps or more with probability at most 1 / (n * eps^2), although the detectors of one shot are correlated.", "quantifier": "all circuits with detectors, all numbers of shots (at least 1), all positive eps", "why_tests_cant": "a statement about the distribution of the recorded value for circuits of all sizes and all numbers of shots", "anchors": ["src/collect_data.py:collect_detection_fraction_data", "src/collect_data.py:ShotData.logical_error_rate"]}
{"id": "C126", "title": "The internal decoder is called with the right words", "statement": "decode_using_internal_decoder runs the first internal_decoder.binary found in the working directory, src or the parent directory. A shell splits its command into exactly the program, the mode, the model file, the shot file, the option to ignore distance 1 errors and the output file of the temporary directory, and the three correlation options exactly if correlated decoding is asked for; this holds for every name of the temporary directory without a single quote, also with blanks. The shot file has one line per shot, in order, with the numbers of exactly the detectors that fired. The predictions that the program writes are returned, and its failure raises. Without the program there is a RuntimeError. If the name of the temporary directory has an odd number of single quotes the command has an unclosed quote.", "quantifier": "all circuits and samples of matching size, all temporary directory names, all decoder programs, both decoding modes", "why_tests_cant": "the names of temporary directories and the behaviour of the program are not under the control of a test, and the program is not public", "anchors": ["src/decoding.py:decode_using_internal_decoder", "src/decoding.py:internal_decoder_path"]}
