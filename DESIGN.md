# Formal model of Strilanc/honeycomb_threshold: design

`/verif/lean/Verif` is a Lean 4 model of the Python sources in `/repo/src`, with specifications and proofs.

| directory | content |
|---|---|
| `Verif/Model` | the code, function by function; every definition cites the file and lines it models |
| `Verif/Spec` | what the properties talk about: Pauli algebra, stim's frame semantics, unrolling, faults, parity distributions, file histories. No definition here comes from the code |
| `Verif/Lemmas` | helper lemmas; nothing here is a claim |
| `Verif/Props` | the theorems `cNN_...`, one group per property `CNN` of `properties.jsonl`, each with an `example` that meets its hypotheses |

`MANIFEST.json` (written by `tools/manifest.py`) maps properties to theorems. `seeded/LOG.jsonl` records the wrong programs the
theorems were tested against.

## Trusted base

* Lean 4.33.0's kernel. No `sorry`, no `admit`, no `native_decide`, no `bv_decide`, no axiom of our own.
* The axioms used are at most `propext`, `Classical.choice` and `Quot.sound`. `AXIOMS.md` (written by `tools/axioms.py` from
  `#print axioms`) lists them for every theorem of the manifest.
* Mathlib's definitions that occur in statements: `Int`, `Rat`, `Real`, `Finset`, `ZMod 2`, `Real.log`, `Real.sqrt`, `IsLeast`.
* That the model is the code. It was written by reading `/repo`. `conformance/` compares six noisy circuits generated by the
  model with the circuits written out in `honeycomb_circuit_test.py` and the diagrams with those of `circuit_diagrams_test.py`, and
  evaluates the assertions of `honeycomb_layout_test.py`, `measure_tracker_test.py` and `noise_test.py` on the model. No other part
  of the model has been compared with the code other than by reading and by `example`s.
* That the specifications say what stim, networkx and Python do. They are small and listed below.

## Representation

* Exceptions are values: `Except PyErr`. The kinds of exception that callers can tell apart are kept apart.
* Python `int` is `Int` (or `Nat` where only non-negative values can occur), `float` is `Rat` or `Real` (see simplifications),
  `set` is `Finset` or a duplicate-free list, `dict` is an insertion-ordered association list `PyDict`.
* Coordinates are complex numbers whose parts are multiples of 1/2. The model stores twice the parts as `Int`
  (`Pt`), so layout arithmetic is exact. Python's doubles are exact for these values too.
* A stim circuit is the inductive type `Circuit` (instructions and `REPEAT` blocks). `Circuit.flatten` unrolls it.
* Loops that Python runs until a condition holds take fuel; the theorems show that some explicit amount of fuel suffices.
* External programs are parameters: the decoder and the sampler are functions or lists of results the theorems quantify over.

## What is modelled

| source file | modelled | not modelled |
|---|---|---|
| `honeycomb_layout.py` | everything | exponents and signed zeros in `repr` of floats |
| `honeycomb_circuit.py` | everything | |
| `measure_tracker.py` | everything | |
| `noise.py` | everything | |
| `decoding.py` | everything: flattening, matching graph, pymatching graph, syndrome formats, counting | pymatching's and the internal decoder's algorithm (parameters), temporary files (their contents are modelled), stim's pseudo random numbers (its sampling probabilities are in `Spec/Sampling.lean`) |
| `probability_util.py` | everything | float rounding |
| `collect_data.py` | everything | wall clock (the recorded seconds are inputs) |
| `plotting.py` | `total_error_to_per_piece_error`, the curves and bands of `plot_data` | axes, ticks, titles, legends, files |
| `circuit_diagrams.py` | everything | |
| `paper/aggregate_csv_data.py` | everything | |
| `paper/main_collect_all.py` | `main`, `collect_data`, the list of problems, `surface_code_circuit` | messages to stderr, the commented-out collection of detection fractions; the parsing of circuit files is an oracle (the distance 3 files are transcribed in `Model/SurfaceFiles.lean`) |
| `paper/main_render_lambda_figure.py` | `LambdaGroup` (grouping, combining, fits, projections), the panels, labels and marks of the three `plot_*` functions, `main` | axes, ticks, saving |
| `paper/main_render_threshold_figure.py` | the panels of `plot_thresholds`, row labels, `main` | legends, axes, saving |
| `paper/main_render_detection_fraction_figure.py` | the curves of `plot_detection_fraction`, `main` | legend, axes, saving |
| `main_example.py` | everything | the window |
| `honeycomb_circuit_double_epr_test.py` | the generated circuit, for any layout | the decoding of 10000 samples in `test_circuit` |
| `paper/write_honeycomb_networkx_graph.py` | `main` | the pickled file |

## Simplifications

* Floats are exact rationals or reals. Theorems about `log_factorial`, fits and searches are about the real-number function.
  Float overflow, rounding, NaN and signed zero are outside the model.
* `CSV` files are lists of lines. Fields contain no quotes; `c52_comma_false` shows what an unquoted comma does. Writes of one
  row are atomic except in `c49_torn_row_false`.
* The order of iteration over a Python `set` is not modelled; the model uses lists in insertion order. Where the code iterates
  over a set (`obs_edges & round_edges` in `honeycomb_circuit.py` 224 and 402) the entries are combined by exclusive or and the
  result is sorted, so a successful result does not depend on the order. Which of "missing entry" and "obstacle" wins when both
  occur does depend on it; neither occurs in the generated circuits' observables.
* `functools.cached_property` and `lru_cache` are ordinary functions: the cached functions are pure.
* The noise arguments of instructions are symbolic where they are computed by a formula (`Arg.indep p 5`); C31 gives their value.

## Specifications

* `Spec/Frame.lean`: stim's Pauli frame simulation. The state assigns to each qubit the Pauli by which it differs from a
  noiseless reference run. Resets and measurements multiply the frame by an arbitrary power of the stabilised operator: the
  theorems quantify over all these bits, so "no detector fires" means it fires for no outcome.
* `Spec/Faults.lean`: the same with single-qubit Pauli faults between instructions.
* `Spec/Damage.lean`: damaged regions; the errors that the noise channels can draw, with positive probability; records with `n` such errors.
* `Spec/Glitch.lean`: an interval of a circuit during which anything may happen, for C106.
* `Spec/Sampling.lean`: the detector sampler with its probabilities: a distribution over records and numbers of errors.
* `Spec/Detections.lean`: the probability that a detector fires; the mean number of detectors that fire.
* `Spec/Repeat.lean`: independent samples of a distribution.
* `Spec/RandomRuns.lean`: the collection loop with a sampler that takes its shots from a random table.
* `Spec/Fits.lean`: average and spread of the abscissae of a linear regression.
* `Spec/Analysis.lean`: where the probabilities of an error model come from: its lines, the errors each line stands for, and their probabilities.
* `Spec/Unrolled.lean`, `Spec/Timeline.lean`, `Spec/Detectors.lean`: the generation loop without loop compression, measurement
  record positions, and the complete list of detectors a layout should have.
* `Spec/Noise.lean`: the noise each time step should get, stated per instruction.
* `Spec/Parity.lean`: distribution of the product of independent flips.
* `Spec/Dem.lean`, `Spec/Decode.lean`: meaning of detector error models, edges of the matching graph, file formats.
* `Spec/Collect.lean`: histories of runs, crashes and restarts of the collection program.
* `Spec/Script.lean`: the rows of one problem; a sequence of runs of the script, one per problem id.
* `Spec/Lambda.lean`, `Spec/Probability.lean`, `Spec/Diagram.lean`, `Spec/Layout.lean`, `Spec/Pauli.lean`, `Spec/Tracker.lean`.

## Plan per property

| property | modelled | proof |
|---|---|---|
| C01-C11, C62 | layout on `Int` sizes, list based like the code | membership characterisation of the sorted lists by modular arithmetic; counting; commutation in ZMod 2 |
| C12, C20-C24 | circuit generation as an AST with REPEAT, tracker threaded as state | closed form of the tracker after every sub-round by induction; shift invariance of the loop body |
| C13 | description fields | arithmetic |
| C14-C17 | measurement tracker | refinement to a log of symmetric differences, induction over operation lists |
| C18, C19 | frame semantics | forward simulation of each style's circuit to an abstract "measure all edges of the round" trajectory; symplectic invariants |
| C25-C30, C33 | noise models on the same AST | structural induction over circuits |
| C31 | real valued function | Walsh-Hadamard characters over (Z/2)^n |
| C32 | gadget expansion | case analysis and frame semantics |
| C34-C37, C63 | DEM AST, graph as edge list | induction over flattening; parity probability algebra |
| C38, C39 | matrices as lists, external decoder and sampler as parameters | list induction |
| C40, C41 | fuelled loops over ordered values | invariants |
| C42, C43 | Mathlib reals | Stirling bounds |
| C44 | instances of `binary_search` | unimodality of the binomial log likelihood |
| C45, C61, C65 | Mathlib reals | algebra, convexity |
| C46-C49, C56 | collection loop as a state machine over a decoder oracle and a file | invariants over oracle sequences and crash prefixes |
| C50-C55, C70-C72 | data containers, plotted curves, panels of figures | folds over association lists, C44 and C45 |
| C57, C58 | diagrams | induction |
| C59, C60, C66 | lambda groups, the script's problem list | folds, arithmetic, case analysis of the parameter tables |
| C64, C67 | the closed form of the circuit | every detector and observable annotation is read off the closed form and compared with an independent list |
| C68 | frame semantics with faults | faults on data qubits are moved to the borders of sub-rounds (they commute through everything they do not interact with); silent detectors make homologous loops equal; disjoint membranes (columns for "V", drifting zigzags for "H") each need a fault of their own |
| C69 | the same | an explicit row (column) of faults; a run of the generated circuit is split behind the preparation |
| C73 | the instructions of the noisy circuit | every instruction of the closed form and every inserted channel is classified |
| C74-C76 | frame semantics with faults in a region, flipped results, errors drawn from the noise channels | the errors of the channels become faults on the edges that carry them; the membranes of C68, one per column or pair of rows, must each meet the damage |
| C77, C78 | the same | the row (column) of C69 is made of X errors behind the reset (C77) or of two-qubit errors of one parity measurement instruction (C78); frames of separate runs add |
| C79-C81 | the script's arguments and problem list around the collection loop of C46-C48 | the rows of a problem are the rows with its description; C48 and C50 for sharding, C46 and C47 for limits |
| C82 | `plot_circuit` as a fold over instructions, `diagram_3d` with exact rationals, `diagram_2d` | the cells of different qubits and steps differ; letters overwrite lines; an instruction relation `Draws` says what is drawn |
| C83 | the same on the output of `noisy_circuit` | the drawn part of every noisy time step is the time step |
| C84 | the same on the generated circuits | every instruction of the closed form can be drawn (C73's classification), C25 gives one per qubit and step; the shape of the generated circuit (one block) |
| C85 | the same; the state of every ancilla between its couplings | an error of a channel is a fault on one data qubit, up to flips of results about it and errors that only flip results: before the first coupling an error on the ancilla is nothing, before the second it comes from a fault on the left end, behind it it only flips results; the crossing argument of C74 with data qubits instead of edges |
| C86 | `plot_lambda_line_fits_combo` as the list of its panels; `linregress` is any function that returns a least squares line | the groups of a panel are the entries of `groups_from_data` (C59); the values of `combo_data` are the cell rates of a specification that does not mention groups; the best line is unique for two different distances; there are fewer noise values than markers |
| C87, C88 | `plot_lambda_combo`, `plot_teraquop_combo` as columns of curves; searches with fuel | C61 gives fuel for every group, the sum over cases and noise values is enough for the figure; values from C60, C61, C65; induction over cases and columns |
| C89, C90 | samples with `n` errors (`Spec/Damage.lean`), the two parts of a shot, minimum error decoders (`Spec/Correct.lean`) | runs with errors are linear: two runs add up to a run with the errors of both, and a run with `a + b` errors is the sum of runs with `a` and `b` errors (induction over the run); detectors and observables are linear in the record; distances from C76, C77, C78, C85; counting from C38 |
| C91 | the `main` functions of the figure scripts (`Model/Mains.lean`); what runs of the collection script can leave in a file (`CollectedFile`, `Spec/Pipeline.lean`) | induction over the runs with C48 and C49 for each; every kept row is clean and for a problem of the script; then C50 and C71, C72, C86, C87, C88. The one crash point where C49 is false is excluded |
| C92 | command line arguments and a file system (`Files`, `Model/Csv.lean`) | the expansion is a `flatMap` (`namedFiles`); reading from C50, printing from C53 |
| C93 | `exampleMain` | termination and stop reasons from C47, the file from C48, the curves from C70 |
| C94 | `surfaceCodeCircuit`, `surfaceCodeProblems`, any reader of files | instances of C25, C26, C29, C30; unused qubits by simulation of noisy runs whose frames agree on the used qubits |
| C95 | `Lab` (sampler, decoder and clock as parameters), `Lab.sample`, `asDecoderProblem`, `scriptProblems`, `collectCircuits` | the order of calls from C48, the count from C38; the oracle of C79-C81 and C91 is instantiated with the circuits; without noise by C18, C19, C26 and an induction over noisy runs; few errors by C89 |
| C96 | the same as C85 | the lower bound is C85. It is attained by two-qubit errors behind the second controlled gates of sub-round 2: on every other data qubit of the column of C69, with an X or Z on the ancilla where the measured parity has to be flipped too. `Lemmas/Column.lean` gives the frame of the column between the measurements (periodic with period six in the rows), `ColumnRun.lean` follows it through the three schedules, `ColumnSampled.lean` draws it from one channel of the generated circuit |
| C97 | the same as C68: the executions of `CanRecordWith`, `detectorValues`, `detectorCoords` | the record is that of a trajectory of frames (C68). `Lemmas/Symptoms.lean`: each detector is a difference of two readings of a face (or an edge), additive in the faults; a single fault leaves the reading of each of its three faces constant except for one step, which gives a list of four (layer, place) keys. `SymptomsRecord.lean`: which detectors use a given result, at most four. `SymptomsCount.lean`: keys of detectors are distinct, so the number of detectors that fire is at most the number of keys |
| C98 | `Model/DoubleEpr.lean`: `generate_double_epr_honeycomb_circuit` and `measure_obs_anc_parities` for any layout; `Spec/DoubleEpr.lean`: the four parities and when products commute | `Lemmas/DoubleEpr*.lean`: closed form of each sub-round by an invariant of the tracker; the noise adds only channels (C25, C29); the memory is a trajectory of frames; C10 and C11 give that each product evolves into the next one and that the four commute, so first parity + crossing edges + last parity telescopes to 0; hexagon parities are conserved. The undetected error: the measured basis on one qubit of a logical operator, drawn before the last sub-round's measurements |
| C99 | the executions of `CanRecordWith`, `detectorValues`, `observableValue`; `Spec/ParitySum.lean`: the exclusive or of values | `Lemmas/Elementary.lean`: a run with faults is a trajectory of frames with Pauli errors before sub-rounds (C68); detectors and observable are additive in these and blind to the code's stabilisers (`Meter`), so each error splits into at most two elementary ones, each firing at most two detectors. `Lemmas/Realise.lean`, `Realised.lean`: each elementary error is caused by a real fault: for every style the circuit is cut where a single Pauli enters as that error, and the noisy circuit can be cut there too. For noise channels (`c99_channels`), `Lemmas/Damage.lean` turns errors near edges, ancilla errors and wrong results included, into a trajectory with errors on the ends of these edges (`damage_traj`, `sampled_inside`) |
| C100 | `CanSample`, `detectorValues`, `observableValue`, `sumValues` as in C99 | As `c99_channels`, but each elementary error is shown to be drawn by a noise channel of the generated circuit: `Lemmas/Sites.lean` finds, step by step, the channel before, after or inside an operation of the noiseless circuit and lets its error pass what follows in the step; `Lemmas/Drawn.lean`, `DrawnStyles.lean` name the operation for every slot and style (the reset and the final measurement at the ends; parity measurements for EM3, their expansion for EM3_v2; the data rotation for SD6; the controlled gates for PC3 and SI1000). Elementary errors that do nothing are dropped |
| C101 | generated circuit with its noise channels; `CanSample`, `CanRecordWith`, `detectorValues` | for each kind of detector a data fault that changes what it reads (`Lemmas/Felt.lean`), split into elementary faults; one of these changes it too, is a single error of a noise channel (C100) and hits at most two detectors. `Lemmas/DetectorCount.lean` counts the detectors for C22 |
| C102 | the matching graph and the graph handed to pymatching (C35, C37); the components of an error model as independent events (`probability` in `Spec/Likelihood.lean`) | induction over the components: hitting an edge once more toggles it, so edges are independent with the probabilities of C35; the weights are the logarithms of their odds. Extra edges are heavier than any explanation without them |
| C103 | `legend_label`, `Edge.__repr__`, `Prev.__repr__` as functions to texts (Model/Labels.lean); `repr` of half-integer complex numbers | numbers are read back from their text, texts split uniquely at separators that the parts do not contain |
| C104 | error models of a circuit and minimum weight decoders (Spec/ErrorModel.lean): what stim's error analyser and pymatching are trusted to do, as hypotheses; `writeNetworkxGraph` | components add up to samples of the circuit (linearity of the frame simulation), so C76, C85, C100, C101 bound cycles of the graph; two matchings that differ in their prediction differ in a cycle; existence of error models and decoders shows that the hypotheses can be met |
| C105 | the halves of the detectors by layer, ways along edges of the graph (Spec/Components.lean); error models as in C104 | parity: each layer reads every data qubit as often as it has faces at it, the layers of one half telescope; so no component joins the halves; elementary faults lead every detector of the first half up to the final faces, which are joined around the torus (induction over the lattice of faces), and every other detector up to one that is fired alone |
| C106 | runs of the three parts of the unrolled noisy circuit, with arbitrary results and an arbitrary frame in between (Spec/Glitch.lean) | before: continue the first part without errors and compare with C18, a detector only uses results of its layer and earlier; after: every cut of the noiseless circuit is a cut of the noisy one with equivalent parts; from a cut between two sub-rounds on the frame of the data qubits is that of a clean run after at most three sub-rounds, whatever the state (resets of SD6 and SI1000, accumulators of PC3 measured once); frames chosen to explain the earlier results make it a trajectory with faults up to there only, whose symptoms are known from C97 |
| C107 | as C74 and C106; `Touches` (`Spec/Place.lean`) says that a face or an edge has a qubit of a region | a damaged run is a faulty trajectory with its faults in the region (C74), every detector reads only the faults at its own face or edge (C97); a run with n errors is a sum of n runs with one error each, which is a cut of the circuit (C106) or one wrong result |
| C108 | as C105: samples (`CanSample`), `detectionBits`, `finalHalf` | any two detectors of the same half are joined by edges (C105), so errors exist that fire just these two, and sums of samples are samples (C100); patterns are counted by toggling one detector; an undetected flip (C77) is added to a sample to change only the observable |
| C109 | the detector sampler as a probability distribution over records and numbers of errors (`Spec/Sampling.lean`: `sampleCircuit`, `recordProb`), built instruction by instruction from Mathlib's `PMF` | the factorial moments of the number of errors are at most those of a binomial distribution (induction over the circuit, Vandermonde's identity), so `k` errors have probability at most `C(M, k) q^k`; what has positive probability is a run of `NoisyRuns` and conversely (errors at the same place cancel or combine); then C89 (few errors are corrected) and C90 (no decoder is always right) |
| C110 | nothing new: the sampler of C109, which keeps track of the places that are hit; minimum error decoders of C89 | if the decoder fails, the hit places together with the places of its explanation contain a cluster, connected by shared detectors, that flips the observable without any detector, so it has at least the distance (C76, C85) many places, at least half of them hit; a cluster contains a closed walk through all its places. A place shares detectors with at most 2·97²·25920 others, because of where and when errors are noticed (C107) and because every qubit has only so many places in a round, so there are exponentially few walks, and a given set of `n` places is hit with probability at most `q^n`. The constants are far from optimal (`p0` is about 10^-36). In EM3_v2 the places of an expanded parity measurement all contain the shared ancilla; they are counted as places of the pair of qubits whose parity is measured, because the ancilla is reset before every measurement |
| C111 | nothing new: the matching graph of C35 and C104, the sampler of C109 | the faults on an ancilla before it is reset (or, in PC3, where only the first operations reset it, before it is measured) are replaced by faults at the ends of its edge and flipped results, whose number is bounded because every ancilla is reset or measured every three sub-rounds; so one error is a boundedly long trajectory of Pauli errors of the data qubits, each step of which fires at most two detectors (C102), hence an edge of the graph. The matching and the edges of the errors that happened differ by a cycle; a connected part of it that flips the observable is at least the distance long, and because the matching is lightest, a constant part of its edges comes from errors that happened. The union over walks is that of C110. Scope: `MinimumWeight` in the graph of `detector_error_model_to_nx_graph`; the extra edges of weight 9999999999 of the pymatching graph are not included. The comparability of the edge probabilities is a hypothesis, because `ErrorModelOf` says nothing about probabilities; `c111_uniform` shows that it can be met for every patch, and C112 derives it from the noise of the circuit |
| C112 | `AnalysisOf` (`Spec/Analysis.lean`): what stim's error analysis is trusted to do, with the probabilities | the probability of an error at a place is at least a fiftieth of `worst` and at most `worst` (the noise tables of `noise.py`); a detector is fired only from places near it, so from boundedly many (C110), each with at most fifteen errors. So an edge has a bounded number of causes and at least one. The probability of an odd number of them is at most their sum and, as all are at most a half, at least a constant part of one of them. Then C111 applies. Scope: stim itself is not modelled; that its analysis satisfies `AnalysisOf` is trusted. `c112_exists` shows that it can be satisfied for every circuit |
| C113 | nothing new: the sampler of C109, the undetected errors of C77, C78, C85 and C96 | the sampler is linear: another frame at the start, or other random bits, shift the record. The errors of a channel and the identity form a group, each with a probability of at least `worst / 750`; so shifting the distribution of records by what one error does costs at most this factor (`Lemmas/Toggle.lean`). Split an undetected flip into two halves; for every record one of the two shifted records is decoded wrongly, so the probabilities of the two shifts add up to at least 1 |
| C114 | `firingProb`, `meanDetections` (`Spec/Detections.lean`) over the sampler of C109 | above: a sample is the sum of the effects of its errors, so a detector only fires if a place is hit that can fire it alone; there are boundedly many (C110); union bound. Below: some single error fires the detector (C101), and shifting the distribution of records by this error costs at most the factor `worst / 750` (C113); of a record and the shifted record one has the detector firing |
| C115 | `independent` (`Spec/Repeat.lean`): independent samples; `likelyErrorRateBounds` and `sampleDecodeCountCorrect` as in C44 and C38, shots from the sampler of C109 | by C44 the bounds minimise the distance to the target likelihood, and the likelihood is strictly monotone on each side of its maximum, so a rate more than a grid step outside has a likelihood of at most `r` times the maximum; the counts above (below) the true rate for which this happens form a tail whose probability is at most `r` (likelihood ratio bound). The number of shots is fixed in advance (C117 has the adaptive stopping rule of `collect_simulated_experiment_data`); rounding errors of floats are not modelled |
| C116 | `logical_error_rate`, `independent`, shots and counts as in C115 | the number of wrong shots has a binomial distribution; its mean and variance; Chebyshev's inequality. Numbers of shots are fixed in advance as in C115 |
| C117 | `collectOne` as in C46-C48, with a sampler that takes its shots from a table of independent shots (`tableProblem`, `Spec/RandomRuns.lean`) | the sizes of the batches do not depend on the results, only their number does: after `k` batches the shots used are independent samples of a fixed number, so C115 and C116 hold for each `k`; union bound over `k`. Means: Wald's identity, by induction over the batches. The union bound says little for very many small batches (the default `max_batch` of the collection script) |
| C118 | `detectionRecord` as in C56 on independent shots (`independent`), `meanDetections` of C114 | the mean of a sum over independent samples; bounds from C114 |
| C119 | `likelyErrorRateBounds` as in C44, likelihood `binomialProb` | the grid point next to each bound would be a better match if a rate inside were too unlikely (`gap_lt_below`); upper side by symmetry; closed form of the likelihood without errors |
| C120 | `likelyErrorRateBounds` as in C44 | the grid point nearest to a target moves with the target (`gap_cross`), likelihood strictly monotone on each side of the observed rate |
| C121 | as C119 | the likelihood times `exp (2 n (x - p)^2)` is monotone up to the observed rate `x` (derivative), so rates further away are too unlikely for C119 |
| C122 | `leastSquaresSlopeRange`, `leastSquaresOutputRange` as in C61; `sampleMean`, `sampleSpread` (`Spec/Fits.lean`); linregress a parameter that minimises | the residuals of the best line are orthogonal to 1 and x, so the cost of another line is the best cost plus a quadratic form, minimised by completing the square |
| C123 | `totalErrorToPerPieceError` as in C45, independent shots as in C116 | `(u - v)^k <= u^k - v^k` on each side of one half and separately across it; then C116 with `eps^k / 2` |
| C124 | `LambdaGroup` as in C59 and C65; `sampleMean`, `sampleSpread` | cost of the law = best cost + quadratic form (C122), at most `n * delta^2`; Cauchy-Schwarz for the value at a distance |
| C125 | as C118 | second moment of a sum over independent samples by induction (`mean_square`), Markov's inequality for the squared deviation |
| C126 | `decode_using_internal_decoder` with the command as a text given to a shell; the shell is any function that executes the words of `Spec/Shell.lean` | word by word lemmas about splitting; parity of the number of quotes for the negative part |

## False claims and bugs found

Each is a machine-checked counterexample or, where the code is not modelled, an observation.

* `c36_first_kept_false`: conflicting error mechanisms: the comment says the first edge is kept, but `add_edge` overwrites it.
* `c35_certain_error_raises`: an error of probability 1 makes the weight `log(0)` and raises.
* `c33_general_false`: inside a `REPEAT` block the parity ancilla is chosen from the block alone and can collide with a qubit
  used outside. It does not happen for the generated circuits (`c33_ancilla`).
* `c46_general_false`: with `max_batch > max_shots` and `min_shots > max_shots` more than `max_shots` shots are taken.
* `c47_min_shots_false`: `min_shots` is not a lower bound when `max_batch` is smaller. `c47_zero_min_shots`: 0 raises.
* `c49_header_window_false`: a crash between opening the file and writing the header leaves an empty file that no later run
  gives a header. `c49_torn_row_false`: a torn row is glued to the next one.
* `c98_undetected`: in the double EPR experiment the condition `3 <= sub_round <= lay.sub_rounds` has no effect on the right (`sub_round`
  is always smaller), so the last sub-rounds are noisy and unchecked: one error flips an observable undetected. Its docstring
  also says `Z1*Zb` where the code (rightly) measures `Z1*Za`.
* `c52_comma_false`: texts with commas shift the columns.
* `c45_reflection_composes`: rates above 1/2 are reflected, so they do not compose back to the total.
* `c12_negative_accepted`: negative `sub_rounds` and non-positive sizes are accepted.
* `legend_label` formats with `f"{self.noise:!r}"`, which raises `ValueError` for non-zero noise.
* The style is documented as "CP3" but the code tests for "PC3".
* `combo_data` uses the representative's rounds and distance; all problems of one group must have the same ratio
  (`c66_cells` shows they do). `preserved_observable in "HX"` is a substring test.
* Coordinate lists of more than 100 entries make `iter_flatten_model` raise. Reading predictions ignores trailing garbage.
* `plot_data` raises `IndexError` for more than 30 groups; its y label says per round although rates are per code cell;
  `plot_lambda_combo` labels the largest lambda "low".
* `c87_unmarked`: `plot_lambda_combo` never sets `have_any_poor`, so its low-confidence points are not marked.
* `c88_outside`: in the teraquop figure a point can lie above its whole band.
* The legend of the figure of line fits is that of the first panel only (`c86_legend`), so other noise values have no legend entry.
* `plot_detection_fraction` raises `IndexError` for more than 16 noise values. Its legend is taken from the last column only
  (`axs[-2]`), so a noise value without data there has no legend entry. Its points are joined in the order of the data, not by
  distance.
* `c84_no_block`, `c84_correlated`: `plot_circuit(only_repeat_block=True)` raises `ValueError` for circuits without a `REPEAT` block,
  and circuits of the style EM3_v2 with noise cannot be drawn at all. `plot_circuit` has no case for `Z_ERROR`, so circuits with noise
  on `MX` or `RX` raise (example beside `c83_noise_not_shown`).
* C78: with direct parity measurements the circuit-level distance is half of the `code_distance` that the layout reports.
* C96: with ancillas and the horizontal observable it is three quarters of it.
* C90: with direct parity measurements about a quarter of the reported `code_distance` errors defeat every decoder; a code of that
  distance would be expected to survive nearly half.
* C92: the scripts do not notice a file that is named twice, or together with its directory; all its counts are doubled, so the plotted
  uncertainties are too small.
* C93 (observation): the title of the example's plot says that the error rates are per sub-round; the plotted rates are per cell of
  `code_distance` rounds (C70).
* C94 (observation): the surface code files skip qubit indices (distance 3: 17 qubits, indices up to 44), and `noisy_circuit` without `qs`
  depolarizes the gaps too. `c94_unused` shows that this does not change what can be sampled.
* C81: with the script's default limits the standard deviation limit never matters; with a case reduction above four million the
  one batch taken exceeds the shot limit; `collect_data(case_reduction=0)` raises.

## Conformance

`conformance/dump.lean.txt` prints the model's circuit for a configuration. `conformance/cmp.py` compares the output for SD6, PC3,
EM3, EM3_v2 and SI1000 with observable "V" and for EM3 with "H" with the circuits in `honeycomb_circuit_test.py`. It is run by
hand; it is a check of the model, not part of any proof.

`conformance/plots*` compares the model of `plot_circuit` with the diagrams expected by `circuit_diagrams_test.py`.

`conformance/unit_tests.lean.txt` states the assertions of `honeycomb_layout_test.py` (with the two diagrams of the layout),
`measure_tracker_test.py` and `noise_test.py` (except the numerical comparison of two distributions, which C31 proves) about the
model. Running it with `lake env lean --stdin` prints nothing: they all hold.
