{
 "claims": [
  {
   "property": "C01",
   "status": "proved",
   "theorems": [
    "Honeycomb.c01_constructor",
    "Honeycomb.c01_tiles"
   ],
   "note": ""
  },
  {
   "property": "C02",
   "status": "proved",
   "theorems": [
    "Honeycomb.c02_wrap",
    "Honeycomb.c02_wrap_eq_iff"
   ],
   "note": ""
  },
  {
   "property": "C03",
   "status": "proved",
   "theorems": [
    "Honeycomb.c03_hexes"
   ],
   "note": ""
  },
  {
   "property": "C04",
   "status": "proved",
   "theorems": [
    "Honeycomb.c04_matching"
   ],
   "note": ""
  },
  {
   "property": "C05",
   "status": "proved",
   "theorems": [
    "Honeycomb.c05_edges"
   ],
   "note": ""
  },
  {
   "property": "C06",
   "status": "proved",
   "theorems": [
    "Honeycomb.c06_counts"
   ],
   "note": ""
  },
  {
   "property": "C07",
   "status": "proved",
   "theorems": [
    "Honeycomb.c07_bijection",
    "Honeycomb.c07_halves",
    "Honeycomb.c07_except"
   ],
   "note": ""
  },
  {
   "property": "C08",
   "status": "proved",
   "theorems": [
    "Honeycomb.c08_face_boundary"
   ],
   "note": ""
  },
  {
   "property": "C09",
   "status": "proved",
   "theorems": [
    "Honeycomb.c09_face_product",
    "Honeycomb.c09_face_commutes",
    "Honeycomb.c09_faces_commute"
   ],
   "note": ""
  },
  {
   "property": "C10",
   "status": "proved",
   "theorems": [
    "Honeycomb.c10_observable_evolution"
   ],
   "note": ""
  },
  {
   "property": "C11",
   "status": "proved",
   "theorems": [
    "Honeycomb.c11_logical_qubits"
   ],
   "note": ""
  },
  {
   "property": "C12",
   "status": "proved",
   "theorems": [
    "Honeycomb.c12_generation",
    "Honeycomb.c12_negative_accepted"
   ],
   "note": ""
  },
  {
   "property": "C13",
   "status": "proved",
   "theorems": [
    "Honeycomb.c13_description"
   ],
   "note": ""
  },
  {
   "property": "C14",
   "status": "proved",
   "theorems": [
    "Honeycomb.c14_query_is_xor",
    "Honeycomb.c14_order_irrelevant",
    "Honeycomb.c14_add_measurements",
    "Honeycomb.c14_add_dummies",
    "Honeycomb.c14_add_group",
    "Honeycomb.c14_clock"
   ],
   "note": ""
  },
  {
   "property": "C15",
   "status": "proved",
   "theorems": [
    "Honeycomb.c15_record_targets",
    "Honeycomb.c15_record_targets_after"
   ],
   "note": ""
  },
  {
   "property": "C16",
   "status": "proved",
   "theorems": [
    "Honeycomb.c16_obstacle_or_missing",
    "Honeycomb.c16_append_detector"
   ],
   "note": ""
  },
  {
   "property": "C17",
   "status": "proved",
   "theorems": [
    "Honeycomb.c17_nested_prev",
    "Honeycomb.c17_nested_prev_selects"
   ],
   "note": ""
  },
  {
   "property": "C18",
   "status": "proved",
   "theorems": [
    "Honeycomb.c18_no_detector_fires"
   ],
   "note": ""
  },
  {
   "property": "C19",
   "status": "proved",
   "theorems": [
    "Honeycomb.c19_observable_not_flipped"
   ],
   "note": ""
  },
  {
   "property": "C20",
   "status": "proved",
   "theorems": [
    "Honeycomb.c20_loop_compression"
   ],
   "note": ""
  },
  {
   "property": "C21",
   "status": "proved",
   "theorems": [
    "Honeycomb.c21_one_operation_per_step"
   ],
   "note": ""
  },
  {
   "property": "C22",
   "status": "proved",
   "theorems": [
    "Honeycomb.c22_measurements",
    "Honeycomb.c22_measured",
    "Honeycomb.c22_detectors"
   ],
   "note": ""
  },
  {
   "property": "C23",
   "status": "proved",
   "theorems": [
    "Honeycomb.c23_positions",
    "Honeycomb.c23_absolute",
    "Honeycomb.c23_shifts"
   ],
   "note": ""
  },
  {
   "property": "C24",
   "status": "proved",
   "theorems": [
    "Honeycomb.c24_steady_state"
   ],
   "note": ""
  },
  {
   "property": "C25",
   "status": "proved",
   "theorems": [
    "Honeycomb.c25_only_adds_noise",
    "Honeycomb.c25_noise_order"
   ],
   "note": ""
  },
  {
   "property": "C26",
   "status": "proved",
   "theorems": [
    "Honeycomb.c26_zero_noise"
   ],
   "note": ""
  },
  {
   "property": "C27",
   "status": "proved",
   "theorems": [
    "Honeycomb.c27_channels",
    "Honeycomb.c27_strengths"
   ],
   "note": ""
  },
  {
   "property": "C28",
   "status": "proved",
   "theorems": [
    "Honeycomb.c28_strengths",
    "Honeycomb.c28_idle"
   ],
   "note": ""
  },
  {
   "property": "C29",
   "status": "proved",
   "theorems": [
    "Honeycomb.c29_refused",
    "Honeycomb.c29_supported"
   ],
   "note": ""
  },
  {
   "property": "C30",
   "status": "proved",
   "theorems": [
    "Honeycomb.c30_record_preserved"
   ],
   "note": ""
  },
  {
   "property": "C31",
   "status": "proved",
   "theorems": [
    "Honeycomb.c31_distribution",
    "Honeycomb.c31_probability"
   ],
   "note": ""
  },
  {
   "property": "C32",
   "status": "proved",
   "theorems": [
    "Honeycomb.c32_errors",
    "Honeycomb.c32_error_effect",
    "Honeycomb.c32_no_error"
   ],
   "note": ""
  },
  {
   "property": "C33",
   "status": "proved",
   "theorems": [
    "Honeycomb.c33_ancilla",
    "Honeycomb.c33_general_false"
   ],
   "note": "Proved for every honeycomb EM3_v2 circuit (c33_ancilla). The general claim about every circuit given to noisy_circuit is false of the code; c33_general_false is the machine-checked counterexample."
  },
  {
   "property": "C34",
   "status": "proved",
   "theorems": [
    "Honeycomb.c34_flatten"
   ],
   "note": ""
  },
  {
   "property": "C35",
   "status": "proved",
   "theorems": [
    "Honeycomb.c35_graph",
    "Honeycomb.c35_nodes",
    "Honeycomb.c35_raises",
    "Honeycomb.c35_certain_error_raises"
   ],
   "note": ""
  },
  {
   "property": "C36",
   "status": "partial",
   "theorems": [
    "Honeycomb.c36_first_kept_false",
    "Honeycomb.c36_kept_partial"
   ],
   "note": "The property as stated in the code's comment is false of the code: networkx add_edge overwrites, so the last error wins (c36_first_kept_false is the counterexample). c36_kept_partial states what holds instead; see also C63."
  },
  {
   "property": "C37",
   "status": "proved",
   "theorems": [
    "Honeycomb.c37_pymatching_graph",
    "Honeycomb.c37_syndrome",
    "Honeycomb.c37_decode"
   ],
   "note": ""
  },
  {
   "property": "C38",
   "status": "proved",
   "theorems": [
    "Honeycomb.c38_counts",
    "Honeycomb.c38_bound",
    "Honeycomb.c38_unknown_decoder",
    "Honeycomb.c38_model_mismatch",
    "Honeycomb.c38_flags"
   ],
   "note": ""
  },
  {
   "property": "C39",
   "status": "proved",
   "theorems": [
    "Honeycomb.c39_dets_file",
    "Honeycomb.c39_predictions",
    "Honeycomb.c39_internal"
   ],
   "note": ""
  },
  {
   "property": "C40",
   "status": "proved",
   "theorems": [
    "Honeycomb.c40_closest",
    "Honeycomb.c40_exact"
   ],
   "note": ""
  },
  {
   "property": "C41",
   "status": "proved",
   "theorems": [
    "Honeycomb.c41_sound",
    "Honeycomb.c41_fuel",
    "Honeycomb.c41_total",
    "Honeycomb.c41_zero_step"
   ],
   "note": ""
  },
  {
   "property": "C42",
   "status": "proved",
   "theorems": [
    "Honeycomb.c42_log_factorial",
    "Honeycomb.c42_uniform",
    "Honeycomb.c42_negative"
   ],
   "note": ""
  },
  {
   "property": "C43",
   "status": "proved",
   "theorems": [
    "Honeycomb.c43_exact",
    "Honeycomb.c43_approx",
    "Honeycomb.c43_bot",
    "Honeycomb.c43_array"
   ],
   "note": ""
  },
  {
   "property": "C44",
   "status": "proved",
   "theorems": [
    "Honeycomb.c44_bounds",
    "Honeycomb.c44_bracket",
    "Honeycomb.c44_no_shots"
   ],
   "note": ""
  },
  {
   "property": "C45",
   "status": "proved",
   "theorems": [
    "Honeycomb.c45_composes",
    "Honeycomb.c45_monotone",
    "Honeycomb.c45_reflection",
    "Honeycomb.c45_reflection_composes",
    "Honeycomb.c45_rejects"
   ],
   "note": ""
  },
  {
   "property": "C46",
   "status": "proved",
   "theorems": [
    "Honeycomb.c46_budget",
    "Honeycomb.c46_batch",
    "Honeycomb.c46_general_false"
   ],
   "note": "Proved with the proviso of the statement; c46_general_false shows that it is needed (a max_batch and min_shots above max_shots exceed the budget)."
  },
  {
   "property": "C47",
   "status": "proved",
   "theorems": [
    "Honeycomb.c47_terminates",
    "Honeycomb.c47_positive",
    "Honeycomb.c47_stops",
    "Honeycomb.c47_first",
    "Honeycomb.c47_no_exception",
    "Honeycomb.c47_min_shots_false",
    "Honeycomb.c47_zero_min_shots"
   ],
   "note": "c47_min_shots_false records that min_shots is not a lower bound when max_batch is smaller, contrary to the docstring; c47_zero_min_shots that min_shots = 0 raises."
  },
  {
   "property": "C48",
   "status": "proved",
   "theorems": [
    "Honeycomb.c48_file",
    "Honeycomb.c48_stdout",
    "Honeycomb.c48_no_out_path",
    "Honeycomb.c48_order",
    "Honeycomb.c48_composes",
    "Honeycomb.c48_read_back"
   ],
   "note": ""
  },
  {
   "property": "C49",
   "status": "partial",
   "theorems": [
    "Honeycomb.c49_crash_partial",
    "Honeycomb.c49_header",
    "Honeycomb.c49_restarts_partial",
    "Honeycomb.c49_read_back_partial",
    "Honeycomb.c49_header_window_false",
    "Honeycomb.c49_torn_row_false"
   ],
   "note": "False of the code at one crash point: between the truncation by open('w') and the header (c49_header_window_false); the next run then writes no header and reading finds no data. Proved for every other crash point and any number of restarts. Writes are atomic in the model; c49_torn_row_false shows what a torn write does."
  },
  {
   "property": "C50",
   "status": "proved",
   "theorems": [
    "Honeycomb.c50_sums",
    "Honeycomb.c50_succeeds",
    "Honeycomb.c50_order",
    "Honeycomb.c50_data_files"
   ],
   "note": ""
  },
  {
   "property": "C51",
   "status": "proved",
   "theorems": [
    "Honeycomb.c51_grouped",
    "Honeycomb.c51_grouped_sorted",
    "Honeycomb.c51_grouped_partition",
    "Honeycomb.c51_merged",
    "Honeycomb.c51_merged_sorted",
    "Honeycomb.c51_merged_conserves",
    "Honeycomb.c51_merged_leaves_input",
    "Honeycomb.c51_filter"
   ],
   "note": ""
  },
  {
   "property": "C52",
   "status": "proved",
   "theorems": [
    "Honeycomb.c52_round_trip",
    "Honeycomb.c52_rows",
    "Honeycomb.c52_int",
    "Honeycomb.c52_comma_false"
   ],
   "note": ""
  },
  {
   "property": "C53",
   "status": "proved",
   "theorems": [
    "Honeycomb.c53_rows",
    "Honeycomb.c53_preserves",
    "Honeycomb.c53_idempotent",
    "Honeycomb.c53_no_files",
    "Honeycomb.c53_order"
   ],
   "note": ""
  },
  {
   "property": "C54",
   "status": "proved",
   "theorems": [
    "Honeycomb.c54_fields",
    "Honeycomb.c54_identity",
    "Honeycomb.c54_commute"
   ],
   "note": ""
  },
  {
   "property": "C55",
   "status": "proved",
   "theorems": [
    "Honeycomb.c55_finished",
    "Honeycomb.c55_remaining",
    "Honeycomb.c55_time",
    "Honeycomb.c55_rate"
   ],
   "note": ""
  },
  {
   "property": "C56",
   "status": "proved",
   "theorems": [
    "Honeycomb.c56_record",
    "Honeycomb.c56_output"
   ],
   "note": ""
  },
  {
   "property": "C57",
   "status": "proved",
   "theorems": [
    "Honeycomb.c57_unrolled",
    "Honeycomb.c57_only_blocks"
   ],
   "note": ""
  },
  {
   "property": "C58",
   "status": "proved",
   "theorems": [
    "Honeycomb.c58_places",
    "Honeycomb.c58_characters",
    "Honeycomb.c58_determined",
    "Honeycomb.c58_no_room",
    "Honeycomb.c58_bad_coordinate"
   ],
   "note": ""
  },
  {
   "property": "C59",
   "status": "proved",
   "theorems": [
    "Honeycomb.c59_groups",
    "Honeycomb.c59_ambiguous",
    "Honeycomb.c59_combined"
   ],
   "note": ""
  },
  {
   "property": "C60",
   "status": "proved",
   "theorems": [
    "Honeycomb.c60_surface",
    "Honeycomb.c60_honeycomb",
    "Honeycomb.c60_other"
   ],
   "note": ""
  },
  {
   "property": "C61",
   "status": "proved",
   "theorems": [
    "Honeycomb.c61_through_point",
    "Honeycomb.c61_with_slope",
    "Honeycomb.c61_cost",
    "Honeycomb.c61_output_range",
    "Honeycomb.c61_slope_range",
    "Honeycomb.c61_ranges_total"
   ],
   "note": ""
  },
  {
   "property": "C62",
   "status": "proved",
   "theorems": [
    "Honeycomb.c62_data_error_symptoms",
    "Honeycomb.c62_measurement_error_symptoms"
   ],
   "note": ""
  },
  {
   "property": "C63",
   "status": "proved",
   "theorems": [
    "Honeycomb.c63_last_kept"
   ],
   "note": ""
  },
  {
   "property": "C64",
   "status": "proved",
   "theorems": [
    "Honeycomb.c64_detectors"
   ],
   "note": ""
  },
  {
   "property": "C65",
   "status": "proved",
   "theorems": [
    "Honeycomb.c65_inverse",
    "Honeycomb.c65_monotone",
    "Honeycomb.c65_suppressing",
    "Honeycomb.c65_lambda",
    "Honeycomb.c65_fit",
    "Honeycomb.c65_lambda_range"
   ],
   "note": ""
  },
  {
   "property": "C66",
   "status": "proved",
   "theorems": [
    "Honeycomb.c66_determined",
    "Honeycomb.c66_groups",
    "Honeycomb.c66_cells",
    "Honeycomb.c66_layouts",
    "Honeycomb.c66_distinct"
   ],
   "note": ""
  },
  {
   "property": "C67",
   "status": "proved",
   "theorems": [
    "Honeycomb.c67_observable"
   ],
   "note": ""
  },
  {
   "property": "C68",
   "status": "proved",
   "theorems": [
    "Honeycomb.c68_observable_distance",
    "Honeycomb.c68_code_distance"
   ],
   "note": ""
  },
  {
   "property": "C69",
   "status": "proved",
   "theorems": [
    "Honeycomb.c69_observable_distance_attained",
    "Honeycomb.c69_code_distance_exact"
   ],
   "note": ""
  },
  {
   "property": "C70",
   "status": "proved",
   "theorems": [
    "Honeycomb.c70_curves",
    "Honeycomb.c70_too_many",
    "Honeycomb.c70_no_shots"
   ],
   "note": ""
  },
  {
   "property": "C71",
   "status": "proved",
   "theorems": [
    "Honeycomb.c71_panels",
    "Honeycomb.c71_complete",
    "Honeycomb.c71_row_labels",
    "Honeycomb.c71_label_text"
   ],
   "note": ""
  },
  {
   "property": "C72",
   "status": "proved",
   "theorems": [
    "Honeycomb.c72_columns",
    "Honeycomb.c72_script",
    "Honeycomb.c72_all_shown"
   ],
   "note": ""
  },
  {
   "property": "C73",
   "status": "proved",
   "theorems": [
    "Honeycomb.c73_local"
   ],
   "note": ""
  },
  {
   "property": "C74",
   "status": "proved",
   "theorems": [
    "Honeycomb.c74_damage_crosses",
    "Honeycomb.c74_damage_size"
   ],
   "note": ""
  },
  {
   "property": "C75",
   "status": "proved",
   "theorems": [
    "Honeycomb.c75_edge_damage"
   ],
   "note": ""
  },
  {
   "property": "C76",
   "status": "proved",
   "theorems": [
    "Honeycomb.c76_observable_distance",
    "Honeycomb.c76_circuit_distance"
   ],
   "note": ""
  },
  {
   "property": "C77",
   "status": "proved",
   "theorems": [
    "Honeycomb.c77_undetected_flip",
    "Honeycomb.c77_between"
   ],
   "note": ""
  },
  {
   "property": "C78",
   "status": "proved",
   "theorems": [
    "Honeycomb.c78_observable_distance_exact",
    "Honeycomb.c78_circuit_distance_exact"
   ],
   "note": ""
  },
  {
   "property": "C79",
   "status": "proved",
   "theorems": [
    "Honeycomb.c79_counts",
    "Honeycomb.c79_distinct",
    "Honeycomb.c79_selects",
    "Honeycomb.c79_out_of_range",
    "Honeycomb.c79_all"
   ],
   "note": ""
  },
  {
   "property": "C80",
   "status": "proved",
   "theorems": [
    "Honeycomb.c80_sequence",
    "Honeycomb.c80_files"
   ],
   "note": ""
  },
  {
   "property": "C81",
   "status": "proved",
   "theorems": [
    "Honeycomb.c81_main",
    "Honeycomb.c81_zero",
    "Honeycomb.c81_budget",
    "Honeycomb.c81_stops",
    "Honeycomb.c81_options",
    "Honeycomb.c81_given",
    "Honeycomb.c81_one_batch",
    "Honeycomb.c81_terminates"
   ],
   "note": ""
  },
  {
   "property": "C82",
   "status": "proved",
   "theorems": [
    "Honeycomb.c82_diagram",
    "Honeycomb.c82_long_product"
   ],
   "note": ""
  },
  {
   "property": "C83",
   "status": "proved",
   "theorems": [
    "Honeycomb.c83_noise_not_shown"
   ],
   "note": ""
  },
  {
   "property": "C84",
   "status": "proved",
   "theorems": [
    "Honeycomb.c84_experiment",
    "Honeycomb.c84_block",
    "Honeycomb.c84_no_block",
    "Honeycomb.c84_correlated"
   ],
   "note": ""
  },
  {
   "property": "C85",
   "status": "proved",
   "theorems": [
    "Honeycomb.c85_observable_distance",
    "Honeycomb.c85_circuit_distance",
    "Honeycomb.c85_vertical_exact"
   ],
   "note": ""
  },
  {
   "property": "C86",
   "status": "proved",
   "theorems": [
    "Honeycomb.c86_panels",
    "Honeycomb.c86_labels",
    "Honeycomb.c86_complete",
    "Honeycomb.c86_legend"
   ],
   "note": ""
  },
  {
   "property": "C87",
   "status": "proved",
   "theorems": [
    "Honeycomb.c87_lambda",
    "Honeycomb.c87_unmarked"
   ],
   "note": ""
  },
  {
   "property": "C88",
   "status": "proved",
   "theorems": [
    "Honeycomb.c88_teraquop",
    "Honeycomb.c88_outside"
   ],
   "note": ""
  },
  {
   "property": "C89",
   "status": "proved",
   "theorems": [
    "Honeycomb.c89_corrects",
    "Honeycomb.c89_corrects_ancillas",
    "Honeycomb.c89_code_distance",
    "Honeycomb.c89_all_correct",
    "Honeycomb.c89_exists"
   ],
   "note": ""
  },
  {
   "property": "C90",
   "status": "proved",
   "theorems": [
    "Honeycomb.c90_least",
    "Honeycomb.c90_least_vertical",
    "Honeycomb.c90_no_decoder",
    "Honeycomb.c90_no_decoder_any_style"
   ],
   "note": ""
  },
  {
   "property": "C91",
   "status": "proved",
   "theorems": [
    "Honeycomb.c91_reads",
    "Honeycomb.c91_threshold",
    "Honeycomb.c91_fractions",
    "Honeycomb.c91_lambda",
    "Honeycomb.c91_pipeline"
   ],
   "note": ""
  },
  {
   "property": "C92",
   "status": "proved",
   "theorems": [
    "Honeycomb.c92_no_arguments",
    "Honeycomb.c92_reads",
    "Honeycomb.c92_order",
    "Honeycomb.c92_twice",
    "Honeycomb.c92_unreadable",
    "Honeycomb.c92_empty_directories",
    "Honeycomb.c92_aggregate"
   ],
   "note": ""
  },
  {
   "property": "C93",
   "status": "proved",
   "theorems": [
    "Honeycomb.c93_example"
   ],
   "note": ""
  },
  {
   "property": "C94",
   "status": "proved",
   "theorems": [
    "Honeycomb.c94_errors",
    "Honeycomb.c94_circuit",
    "Honeycomb.c94_idle",
    "Honeycomb.c94_problems",
    "Honeycomb.c94_files",
    "Honeycomb.c94_unused"
   ],
   "note": ""
  },
  {
   "property": "C95",
   "status": "proved",
   "theorems": [
    "Honeycomb.c95_counts",
    "Honeycomb.c95_bounds",
    "Honeycomb.c95_oracle",
    "Honeycomb.c95_file",
    "Honeycomb.c95_script",
    "Honeycomb.c95_completes",
    "Honeycomb.c95_no_noise",
    "Honeycomb.c95_few_errors",
    "Honeycomb.c95_no_noise_total"
   ],
   "note": ""
  },
  {
   "property": "C96",
   "status": "proved",
   "theorems": [
    "Honeycomb.c96_horizontal_exact",
    "Honeycomb.c96_three_quarters",
    "Honeycomb.c96_least_horizontal",
    "Honeycomb.c96_no_decoder"
   ],
   "note": ""
  },
  {
   "property": "C97",
   "status": "proved",
   "theorems": [
    "Honeycomb.c97_symptom",
    "Honeycomb.c97_local"
   ],
   "note": ""
  },
  {
   "property": "C98",
   "status": "proved",
   "theorems": [
    "Honeycomb.c98_experiment",
    "Honeycomb.c98_two_logical_qubits",
    "Honeycomb.c98_detectors",
    "Honeycomb.c98_undetected"
   ],
   "note": ""
  },
  {
   "property": "C99",
   "status": "proved",
   "theorems": [
    "Honeycomb.c99_graphlike",
    "Honeycomb.c99_channels"
   ],
   "note": ""
  },
  {
   "property": "C100",
   "status": "proved",
   "theorems": [
    "Honeycomb.c100_decomposes"
   ],
   "note": ""
  },
  {
   "property": "C101",
   "status": "proved",
   "theorems": [
    "Honeycomb.c101_watches",
    "Honeycomb.c101_watches_data"
   ],
   "note": ""
  },
  {
   "property": "C102",
   "status": "proved",
   "theorems": [
    "Honeycomb.c102_likelihood",
    "Honeycomb.c102_explains",
    "Honeycomb.c102_most_likely",
    "Honeycomb.c102_pymatching"
   ],
   "note": ""
  },
  {
   "property": "C103",
   "status": "proved",
   "theorems": [
    "Honeycomb.c103_label_noise",
    "Honeycomb.c103_label",
    "Honeycomb.c103_edge",
    "Honeycomb.c103_prev"
   ],
   "note": ""
  },
  {
   "property": "C104",
   "status": "proved",
   "theorems": [
    "Honeycomb.c104_graph",
    "Honeycomb.c104_distance",
    "Honeycomb.c104_explained",
    "Honeycomb.c104_corrects",
    "Honeycomb.c104_pymatching",
    "Honeycomb.c104_exists",
    "Honeycomb.c104_script"
   ],
   "note": ""
  },
  {
   "property": "C105",
   "status": "proved",
   "theorems": [
    "Honeycomb.c105_even",
    "Honeycomb.c105_components",
    "Honeycomb.c105_sizes"
   ],
   "note": ""
  },
  {
   "property": "C106",
   "status": "proved",
   "theorems": [
    "Honeycomb.c106_glitch",
    "Honeycomb.c106_errors"
   ],
   "note": ""
  },
  {
   "property": "C107",
   "status": "proved",
   "theorems": [
    "Honeycomb.c107_region",
    "Honeycomb.c107_errors"
   ],
   "note": ""
  },
  {
   "property": "C108",
   "status": "proved",
   "theorems": [
    "Honeycomb.c108_patterns",
    "Honeycomb.c108_undecided",
    "Honeycomb.c108_count"
   ],
   "note": ""
  },
  {
   "property": "C109",
   "status": "proved",
   "theorems": [
    "Honeycomb.c109_suppressed",
    "Honeycomb.c109_suppressed_ancillas",
    "Honeycomb.c109_possible",
    "Honeycomb.c109_never_zero",
    "Honeycomb.c109_zero"
   ],
   "note": ""
  },
  {
   "property": "C110",
   "status": "proved",
   "theorems": [
    "Honeycomb.c110_threshold",
    "Honeycomb.c110_threshold_ancillas",
    "Honeycomb.c110_reliable"
   ],
   "note": ""
  },
  {
   "property": "C111",
   "status": "proved",
   "theorems": [
    "Honeycomb.c111_parts",
    "Honeycomb.c111_edges",
    "Honeycomb.c111_threshold",
    "Honeycomb.c111_uniform",
    "Honeycomb.c111_probabilities",
    "Honeycomb.c111_reliable"
   ],
   "note": ""
  },
  {
   "property": "C112",
   "status": "proved",
   "theorems": [
    "Honeycomb.c112_edges",
    "Honeycomb.c112_degree",
    "Honeycomb.c112_threshold",
    "Honeycomb.c112_reliable",
    "Honeycomb.c112_exists"
   ],
   "note": ""
  },
  {
   "property": "C113",
   "status": "proved",
   "theorems": [
    "Honeycomb.c113_undetected",
    "Honeycomb.c113_distance",
    "Honeycomb.c113_any",
    "Honeycomb.c113_scaling"
   ],
   "note": ""
  },
  {
   "property": "C114",
   "status": "proved",
   "theorems": [
    "Honeycomb.c114_upper",
    "Honeycomb.c114_lower",
    "Honeycomb.c114_fraction",
    "Honeycomb.c114_silent"
   ],
   "note": ""
  },
  {
   "property": "C115",
   "status": "proved",
   "theorems": [
    "Honeycomb.c115_bounds",
    "Honeycomb.c115_decoding",
    "Honeycomb.c115_figures"
   ],
   "note": ""
  },
  {
   "property": "C116",
   "status": "proved",
   "theorems": [
    "Honeycomb.c116_estimate",
    "Honeycomb.c116_unbiased",
    "Honeycomb.c116_decoding"
   ],
   "note": ""
  },
  {
   "property": "C117",
   "status": "proved",
   "theorems": [
    "Honeycomb.c117_batches",
    "Honeycomb.c117_bounds",
    "Honeycomb.c117_estimate",
    "Honeycomb.c117_mean",
    "Honeycomb.c117_decoding",
    "Honeycomb.c117_rate_biased"
   ],
   "note": ""
  },
  {
   "property": "C118",
   "status": "proved",
   "theorems": [
    "Honeycomb.c118_mean",
    "Honeycomb.c118_fraction"
   ],
   "note": ""
  },
  {
   "property": "C119",
   "status": "proved",
   "theorems": [
    "Honeycomb.c119_rates",
    "Honeycomb.c119_no_errors"
   ],
   "note": ""
  },
  {
   "property": "C120",
   "status": "proved",
   "theorems": [
    "Honeycomb.c120_ratio"
   ],
   "note": ""
  },
  {
   "property": "C121",
   "status": "proved",
   "theorems": [
    "Honeycomb.c121_width"
   ],
   "note": ""
  },
  {
   "property": "C122",
   "status": "proved",
   "theorems": [
    "Honeycomb.c122_slope_range",
    "Honeycomb.c122_output_range"
   ],
   "note": ""
  },
  {
   "property": "C123",
   "status": "proved",
   "theorems": [
    "Honeycomb.c123_continuous",
    "Honeycomb.c123_plotted"
   ],
   "note": ""
  },
  {
   "property": "C124",
   "status": "proved",
   "theorems": [
    "Honeycomb.c124_trend",
    "Honeycomb.c124_exact"
   ],
   "note": ""
  },
  {
   "property": "C125",
   "status": "proved",
   "theorems": [
    "Honeycomb.c125_converges"
   ],
   "note": ""
  },
  {
   "property": "C126",
   "status": "proved",
   "theorems": [
    "Honeycomb.c126_called",
    "Honeycomb.c126_missing",
    "Honeycomb.c126_quote",
    "Honeycomb.c126_shots"
   ],
   "note": ""
  }
 ]
}