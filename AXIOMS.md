# Axioms

Output of `#print axioms` for every theorem of MANIFEST.json (written by tools/axioms.py).

* 358 theorems: Classical.choice, Quot.sound, propext
* 14 theorems: Quot.sound, propext
* 2 theorems: propext
* 2 theorems: none

| property | theorem | axioms |
|---|---|---|
| C01 | `Honeycomb.c01_constructor` | Quot.sound, propext |
| C01 | `Honeycomb.c01_tiles` | Classical.choice, Quot.sound, propext |
| C02 | `Honeycomb.c02_wrap` | Quot.sound, propext |
| C02 | `Honeycomb.c02_wrap_eq_iff` | Quot.sound, propext |
| C03 | `Honeycomb.c03_hexes` | Classical.choice, Quot.sound, propext |
| C04 | `Honeycomb.c04_matching` | Classical.choice, Quot.sound, propext |
| C05 | `Honeycomb.c05_edges` | Classical.choice, Quot.sound, propext |
| C06 | `Honeycomb.c06_counts` | Classical.choice, Quot.sound, propext |
| C07 | `Honeycomb.c07_bijection` | Classical.choice, Quot.sound, propext |
| C07 | `Honeycomb.c07_halves` | Classical.choice, Quot.sound, propext |
| C07 | `Honeycomb.c07_except` | Classical.choice, Quot.sound, propext |
| C08 | `Honeycomb.c08_face_boundary` | Classical.choice, Quot.sound, propext |
| C09 | `Honeycomb.c09_face_product` | Classical.choice, Quot.sound, propext |
| C09 | `Honeycomb.c09_face_commutes` | Classical.choice, Quot.sound, propext |
| C09 | `Honeycomb.c09_faces_commute` | Classical.choice, Quot.sound, propext |
| C10 | `Honeycomb.c10_observable_evolution` | Classical.choice, Quot.sound, propext |
| C11 | `Honeycomb.c11_logical_qubits` | Classical.choice, Quot.sound, propext |
| C12 | `Honeycomb.c12_generation` | Classical.choice, Quot.sound, propext |
| C12 | `Honeycomb.c12_negative_accepted` | Classical.choice, Quot.sound, propext |
| C13 | `Honeycomb.c13_description` | Classical.choice, Quot.sound, propext |
| C14 | `Honeycomb.c14_query_is_xor` | Classical.choice, Quot.sound, propext |
| C14 | `Honeycomb.c14_order_irrelevant` | Classical.choice, Quot.sound, propext |
| C14 | `Honeycomb.c14_add_measurements` | Quot.sound, propext |
| C14 | `Honeycomb.c14_add_dummies` | Quot.sound, propext |
| C14 | `Honeycomb.c14_add_group` | Classical.choice, Quot.sound, propext |
| C14 | `Honeycomb.c14_clock` | Classical.choice, Quot.sound, propext |
| C15 | `Honeycomb.c15_record_targets` | Classical.choice, Quot.sound, propext |
| C15 | `Honeycomb.c15_record_targets_after` | Classical.choice, Quot.sound, propext |
| C16 | `Honeycomb.c16_obstacle_or_missing` | Classical.choice, Quot.sound, propext |
| C16 | `Honeycomb.c16_append_detector` | Classical.choice, Quot.sound, propext |
| C17 | `Honeycomb.c17_nested_prev` | Quot.sound, propext |
| C17 | `Honeycomb.c17_nested_prev_selects` | Quot.sound, propext |
| C18 | `Honeycomb.c18_no_detector_fires` | Classical.choice, Quot.sound, propext |
| C19 | `Honeycomb.c19_observable_not_flipped` | Classical.choice, Quot.sound, propext |
| C20 | `Honeycomb.c20_loop_compression` | Classical.choice, Quot.sound, propext |
| C21 | `Honeycomb.c21_one_operation_per_step` | Classical.choice, Quot.sound, propext |
| C22 | `Honeycomb.c22_measurements` | Classical.choice, Quot.sound, propext |
| C22 | `Honeycomb.c22_measured` | Classical.choice, Quot.sound, propext |
| C22 | `Honeycomb.c22_detectors` | Classical.choice, Quot.sound, propext |
| C23 | `Honeycomb.c23_positions` | Classical.choice, Quot.sound, propext |
| C23 | `Honeycomb.c23_absolute` | Classical.choice, Quot.sound, propext |
| C23 | `Honeycomb.c23_shifts` | Classical.choice, Quot.sound, propext |
| C24 | `Honeycomb.c24_steady_state` | Classical.choice, Quot.sound, propext |
| C25 | `Honeycomb.c25_only_adds_noise` | Classical.choice, Quot.sound, propext |
| C25 | `Honeycomb.c25_noise_order` | Classical.choice, Quot.sound, propext |
| C26 | `Honeycomb.c26_zero_noise` | Classical.choice, Quot.sound, propext |
| C27 | `Honeycomb.c27_channels` | Classical.choice, Quot.sound, propext |
| C27 | `Honeycomb.c27_strengths` | Classical.choice, Quot.sound, propext |
| C28 | `Honeycomb.c28_strengths` | Classical.choice, Quot.sound, propext |
| C28 | `Honeycomb.c28_idle` | Classical.choice, Quot.sound, propext |
| C29 | `Honeycomb.c29_refused` | Classical.choice, Quot.sound, propext |
| C29 | `Honeycomb.c29_supported` | Classical.choice, Quot.sound, propext |
| C30 | `Honeycomb.c30_record_preserved` | Classical.choice, Quot.sound, propext |
| C31 | `Honeycomb.c31_distribution` | Classical.choice, Quot.sound, propext |
| C31 | `Honeycomb.c31_probability` | Classical.choice, Quot.sound, propext |
| C32 | `Honeycomb.c32_errors` | Classical.choice, Quot.sound, propext |
| C32 | `Honeycomb.c32_error_effect` | Classical.choice, Quot.sound, propext |
| C32 | `Honeycomb.c32_no_error` | Classical.choice, Quot.sound, propext |
| C33 | `Honeycomb.c33_ancilla` | Classical.choice, Quot.sound, propext |
| C33 | `Honeycomb.c33_general_false` | Classical.choice, Quot.sound, propext |
| C34 | `Honeycomb.c34_flatten` | Classical.choice, Quot.sound, propext |
| C35 | `Honeycomb.c35_graph` | Classical.choice, Quot.sound, propext |
| C35 | `Honeycomb.c35_nodes` | Classical.choice, Quot.sound, propext |
| C35 | `Honeycomb.c35_raises` | Classical.choice, Quot.sound, propext |
| C35 | `Honeycomb.c35_certain_error_raises` | Classical.choice, Quot.sound, propext |
| C36 | `Honeycomb.c36_first_kept_false` | Classical.choice, Quot.sound, propext |
| C36 | `Honeycomb.c36_kept_partial` | Classical.choice, Quot.sound, propext |
| C37 | `Honeycomb.c37_pymatching_graph` | Classical.choice, Quot.sound, propext |
| C37 | `Honeycomb.c37_syndrome` | Quot.sound, propext |
| C37 | `Honeycomb.c37_decode` | Classical.choice, Quot.sound, propext |
| C38 | `Honeycomb.c38_counts` | Classical.choice, Quot.sound, propext |
| C38 | `Honeycomb.c38_bound` | Quot.sound, propext |
| C38 | `Honeycomb.c38_unknown_decoder` | propext |
| C38 | `Honeycomb.c38_model_mismatch` | Classical.choice, Quot.sound, propext |
| C38 | `Honeycomb.c38_flags` | Classical.choice, Quot.sound, propext |
| C39 | `Honeycomb.c39_dets_file` | Classical.choice, Quot.sound, propext |
| C39 | `Honeycomb.c39_predictions` | Classical.choice, Quot.sound, propext |
| C39 | `Honeycomb.c39_internal` | Classical.choice, Quot.sound, propext |
| C40 | `Honeycomb.c40_closest` | Classical.choice, Quot.sound, propext |
| C40 | `Honeycomb.c40_exact` | Classical.choice, Quot.sound, propext |
| C41 | `Honeycomb.c41_sound` | Classical.choice, Quot.sound, propext |
| C41 | `Honeycomb.c41_fuel` | Classical.choice, Quot.sound, propext |
| C41 | `Honeycomb.c41_total` | Classical.choice, Quot.sound, propext |
| C41 | `Honeycomb.c41_zero_step` | Classical.choice, Quot.sound, propext |
| C42 | `Honeycomb.c42_log_factorial` | Classical.choice, Quot.sound, propext |
| C42 | `Honeycomb.c42_uniform` | Classical.choice, Quot.sound, propext |
| C42 | `Honeycomb.c42_negative` | Classical.choice, Quot.sound, propext |
| C43 | `Honeycomb.c43_exact` | Classical.choice, Quot.sound, propext |
| C43 | `Honeycomb.c43_approx` | Classical.choice, Quot.sound, propext |
| C43 | `Honeycomb.c43_bot` | Classical.choice, Quot.sound, propext |
| C43 | `Honeycomb.c43_array` | Classical.choice, Quot.sound, propext |
| C44 | `Honeycomb.c44_bounds` | Classical.choice, Quot.sound, propext |
| C44 | `Honeycomb.c44_bracket` | Classical.choice, Quot.sound, propext |
| C44 | `Honeycomb.c44_no_shots` | Classical.choice, Quot.sound, propext |
| C45 | `Honeycomb.c45_composes` | Classical.choice, Quot.sound, propext |
| C45 | `Honeycomb.c45_monotone` | Classical.choice, Quot.sound, propext |
| C45 | `Honeycomb.c45_reflection` | Classical.choice, Quot.sound, propext |
| C45 | `Honeycomb.c45_reflection_composes` | Classical.choice, Quot.sound, propext |
| C45 | `Honeycomb.c45_rejects` | Classical.choice, Quot.sound, propext |
| C46 | `Honeycomb.c46_budget` | Classical.choice, Quot.sound, propext |
| C46 | `Honeycomb.c46_batch` | Classical.choice, Quot.sound, propext |
| C46 | `Honeycomb.c46_general_false` | Classical.choice, Quot.sound, propext |
| C47 | `Honeycomb.c47_terminates` | Classical.choice, Quot.sound, propext |
| C47 | `Honeycomb.c47_positive` | Classical.choice, Quot.sound, propext |
| C47 | `Honeycomb.c47_stops` | Classical.choice, Quot.sound, propext |
| C47 | `Honeycomb.c47_first` | Classical.choice, Quot.sound, propext |
| C47 | `Honeycomb.c47_no_exception` | Classical.choice, Quot.sound, propext |
| C47 | `Honeycomb.c47_min_shots_false` | Classical.choice, Quot.sound, propext |
| C47 | `Honeycomb.c47_zero_min_shots` | Classical.choice, Quot.sound, propext |
| C48 | `Honeycomb.c48_file` | Classical.choice, Quot.sound, propext |
| C48 | `Honeycomb.c48_stdout` | Classical.choice, Quot.sound, propext |
| C48 | `Honeycomb.c48_no_out_path` | Classical.choice, Quot.sound, propext |
| C48 | `Honeycomb.c48_order` | Classical.choice, Quot.sound, propext |
| C48 | `Honeycomb.c48_composes` | Classical.choice, Quot.sound, propext |
| C48 | `Honeycomb.c48_read_back` | Classical.choice, Quot.sound, propext |
| C49 | `Honeycomb.c49_crash_partial` | Classical.choice, Quot.sound, propext |
| C49 | `Honeycomb.c49_header` | Classical.choice, Quot.sound, propext |
| C49 | `Honeycomb.c49_restarts_partial` | Classical.choice, Quot.sound, propext |
| C49 | `Honeycomb.c49_read_back_partial` | Classical.choice, Quot.sound, propext |
| C49 | `Honeycomb.c49_header_window_false` | Classical.choice, Quot.sound, propext |
| C49 | `Honeycomb.c49_torn_row_false` | Classical.choice, Quot.sound, propext |
| C50 | `Honeycomb.c50_sums` | Classical.choice, Quot.sound, propext |
| C50 | `Honeycomb.c50_succeeds` | Classical.choice, Quot.sound, propext |
| C50 | `Honeycomb.c50_order` | Classical.choice, Quot.sound, propext |
| C50 | `Honeycomb.c50_data_files` | Classical.choice, Quot.sound, propext |
| C51 | `Honeycomb.c51_grouped` | Quot.sound, propext |
| C51 | `Honeycomb.c51_grouped_sorted` | Quot.sound, propext |
| C51 | `Honeycomb.c51_grouped_partition` | Classical.choice, Quot.sound, propext |
| C51 | `Honeycomb.c51_merged` | Classical.choice, Quot.sound, propext |
| C51 | `Honeycomb.c51_merged_sorted` | Classical.choice, Quot.sound, propext |
| C51 | `Honeycomb.c51_merged_conserves` | Classical.choice, Quot.sound, propext |
| C51 | `Honeycomb.c51_merged_leaves_input` | Classical.choice, Quot.sound, propext |
| C51 | `Honeycomb.c51_filter` | Quot.sound, propext |
| C52 | `Honeycomb.c52_round_trip` | Classical.choice, Quot.sound, propext |
| C52 | `Honeycomb.c52_rows` | Classical.choice, Quot.sound, propext |
| C52 | `Honeycomb.c52_int` | Classical.choice, Quot.sound, propext |
| C52 | `Honeycomb.c52_comma_false` | Classical.choice, Quot.sound, propext |
| C53 | `Honeycomb.c53_rows` | Classical.choice, Quot.sound, propext |
| C53 | `Honeycomb.c53_preserves` | Classical.choice, Quot.sound, propext |
| C53 | `Honeycomb.c53_idempotent` | Classical.choice, Quot.sound, propext |
| C53 | `Honeycomb.c53_no_files` | Classical.choice, Quot.sound, propext |
| C53 | `Honeycomb.c53_order` | Classical.choice, Quot.sound, propext |
| C54 | `Honeycomb.c54_fields` | none |
| C54 | `Honeycomb.c54_identity` | none |
| C54 | `Honeycomb.c54_commute` | propext |
| C55 | `Honeycomb.c55_finished` | Classical.choice, Quot.sound, propext |
| C55 | `Honeycomb.c55_remaining` | Classical.choice, Quot.sound, propext |
| C55 | `Honeycomb.c55_time` | Classical.choice, Quot.sound, propext |
| C55 | `Honeycomb.c55_rate` | Classical.choice, Quot.sound, propext |
| C56 | `Honeycomb.c56_record` | Classical.choice, Quot.sound, propext |
| C56 | `Honeycomb.c56_output` | Classical.choice, Quot.sound, propext |
| C57 | `Honeycomb.c57_unrolled` | Quot.sound, propext |
| C57 | `Honeycomb.c57_only_blocks` | Quot.sound, propext |
| C58 | `Honeycomb.c58_places` | Classical.choice, Quot.sound, propext |
| C58 | `Honeycomb.c58_characters` | Classical.choice, Quot.sound, propext |
| C58 | `Honeycomb.c58_determined` | Classical.choice, Quot.sound, propext |
| C58 | `Honeycomb.c58_no_room` | Classical.choice, Quot.sound, propext |
| C58 | `Honeycomb.c58_bad_coordinate` | Classical.choice, Quot.sound, propext |
| C59 | `Honeycomb.c59_groups` | Classical.choice, Quot.sound, propext |
| C59 | `Honeycomb.c59_ambiguous` | Classical.choice, Quot.sound, propext |
| C59 | `Honeycomb.c59_combined` | Classical.choice, Quot.sound, propext |
| C60 | `Honeycomb.c60_surface` | Classical.choice, Quot.sound, propext |
| C60 | `Honeycomb.c60_honeycomb` | Classical.choice, Quot.sound, propext |
| C60 | `Honeycomb.c60_other` | Classical.choice, Quot.sound, propext |
| C61 | `Honeycomb.c61_through_point` | Classical.choice, Quot.sound, propext |
| C61 | `Honeycomb.c61_with_slope` | Classical.choice, Quot.sound, propext |
| C61 | `Honeycomb.c61_cost` | Classical.choice, Quot.sound, propext |
| C61 | `Honeycomb.c61_output_range` | Classical.choice, Quot.sound, propext |
| C61 | `Honeycomb.c61_slope_range` | Classical.choice, Quot.sound, propext |
| C61 | `Honeycomb.c61_ranges_total` | Classical.choice, Quot.sound, propext |
| C62 | `Honeycomb.c62_data_error_symptoms` | Classical.choice, Quot.sound, propext |
| C62 | `Honeycomb.c62_measurement_error_symptoms` | Classical.choice, Quot.sound, propext |
| C63 | `Honeycomb.c63_last_kept` | Classical.choice, Quot.sound, propext |
| C64 | `Honeycomb.c64_detectors` | Classical.choice, Quot.sound, propext |
| C65 | `Honeycomb.c65_inverse` | Classical.choice, Quot.sound, propext |
| C65 | `Honeycomb.c65_monotone` | Classical.choice, Quot.sound, propext |
| C65 | `Honeycomb.c65_suppressing` | Classical.choice, Quot.sound, propext |
| C65 | `Honeycomb.c65_lambda` | Classical.choice, Quot.sound, propext |
| C65 | `Honeycomb.c65_fit` | Classical.choice, Quot.sound, propext |
| C65 | `Honeycomb.c65_lambda_range` | Classical.choice, Quot.sound, propext |
| C66 | `Honeycomb.c66_determined` | Classical.choice, Quot.sound, propext |
| C66 | `Honeycomb.c66_groups` | Classical.choice, Quot.sound, propext |
| C66 | `Honeycomb.c66_cells` | Classical.choice, Quot.sound, propext |
| C66 | `Honeycomb.c66_layouts` | Classical.choice, Quot.sound, propext |
| C66 | `Honeycomb.c66_distinct` | Classical.choice, Quot.sound, propext |
| C67 | `Honeycomb.c67_observable` | Classical.choice, Quot.sound, propext |
| C68 | `Honeycomb.c68_observable_distance` | Classical.choice, Quot.sound, propext |
| C68 | `Honeycomb.c68_code_distance` | Classical.choice, Quot.sound, propext |
| C69 | `Honeycomb.c69_observable_distance_attained` | Classical.choice, Quot.sound, propext |
| C69 | `Honeycomb.c69_code_distance_exact` | Classical.choice, Quot.sound, propext |
| C70 | `Honeycomb.c70_curves` | Classical.choice, Quot.sound, propext |
| C70 | `Honeycomb.c70_too_many` | Classical.choice, Quot.sound, propext |
| C70 | `Honeycomb.c70_no_shots` | Classical.choice, Quot.sound, propext |
| C71 | `Honeycomb.c71_panels` | Classical.choice, Quot.sound, propext |
| C71 | `Honeycomb.c71_complete` | Classical.choice, Quot.sound, propext |
| C71 | `Honeycomb.c71_row_labels` | Classical.choice, Quot.sound, propext |
| C71 | `Honeycomb.c71_label_text` | Classical.choice, Quot.sound, propext |
| C72 | `Honeycomb.c72_columns` | Classical.choice, Quot.sound, propext |
| C72 | `Honeycomb.c72_script` | Classical.choice, Quot.sound, propext |
| C72 | `Honeycomb.c72_all_shown` | Classical.choice, Quot.sound, propext |
| C73 | `Honeycomb.c73_local` | Classical.choice, Quot.sound, propext |
| C74 | `Honeycomb.c74_damage_crosses` | Classical.choice, Quot.sound, propext |
| C74 | `Honeycomb.c74_damage_size` | Classical.choice, Quot.sound, propext |
| C75 | `Honeycomb.c75_edge_damage` | Classical.choice, Quot.sound, propext |
| C76 | `Honeycomb.c76_observable_distance` | Classical.choice, Quot.sound, propext |
| C76 | `Honeycomb.c76_circuit_distance` | Classical.choice, Quot.sound, propext |
| C77 | `Honeycomb.c77_undetected_flip` | Classical.choice, Quot.sound, propext |
| C77 | `Honeycomb.c77_between` | Classical.choice, Quot.sound, propext |
| C78 | `Honeycomb.c78_observable_distance_exact` | Classical.choice, Quot.sound, propext |
| C78 | `Honeycomb.c78_circuit_distance_exact` | Classical.choice, Quot.sound, propext |
| C79 | `Honeycomb.c79_counts` | Classical.choice, Quot.sound, propext |
| C79 | `Honeycomb.c79_distinct` | Classical.choice, Quot.sound, propext |
| C79 | `Honeycomb.c79_selects` | Classical.choice, Quot.sound, propext |
| C79 | `Honeycomb.c79_out_of_range` | Classical.choice, Quot.sound, propext |
| C79 | `Honeycomb.c79_all` | Classical.choice, Quot.sound, propext |
| C80 | `Honeycomb.c80_sequence` | Classical.choice, Quot.sound, propext |
| C80 | `Honeycomb.c80_files` | Classical.choice, Quot.sound, propext |
| C81 | `Honeycomb.c81_main` | Classical.choice, Quot.sound, propext |
| C81 | `Honeycomb.c81_zero` | Classical.choice, Quot.sound, propext |
| C81 | `Honeycomb.c81_budget` | Classical.choice, Quot.sound, propext |
| C81 | `Honeycomb.c81_stops` | Classical.choice, Quot.sound, propext |
| C81 | `Honeycomb.c81_options` | Classical.choice, Quot.sound, propext |
| C81 | `Honeycomb.c81_given` | Classical.choice, Quot.sound, propext |
| C81 | `Honeycomb.c81_one_batch` | Classical.choice, Quot.sound, propext |
| C81 | `Honeycomb.c81_terminates` | Classical.choice, Quot.sound, propext |
| C82 | `Honeycomb.c82_diagram` | Classical.choice, Quot.sound, propext |
| C82 | `Honeycomb.c82_long_product` | Classical.choice, Quot.sound, propext |
| C83 | `Honeycomb.c83_noise_not_shown` | Classical.choice, Quot.sound, propext |
| C84 | `Honeycomb.c84_experiment` | Classical.choice, Quot.sound, propext |
| C84 | `Honeycomb.c84_block` | Classical.choice, Quot.sound, propext |
| C84 | `Honeycomb.c84_no_block` | Classical.choice, Quot.sound, propext |
| C84 | `Honeycomb.c84_correlated` | Classical.choice, Quot.sound, propext |
| C85 | `Honeycomb.c85_observable_distance` | Classical.choice, Quot.sound, propext |
| C85 | `Honeycomb.c85_circuit_distance` | Classical.choice, Quot.sound, propext |
| C85 | `Honeycomb.c85_vertical_exact` | Classical.choice, Quot.sound, propext |
| C86 | `Honeycomb.c86_panels` | Classical.choice, Quot.sound, propext |
| C86 | `Honeycomb.c86_labels` | Classical.choice, Quot.sound, propext |
| C86 | `Honeycomb.c86_complete` | Classical.choice, Quot.sound, propext |
| C86 | `Honeycomb.c86_legend` | Classical.choice, Quot.sound, propext |
| C87 | `Honeycomb.c87_lambda` | Classical.choice, Quot.sound, propext |
| C87 | `Honeycomb.c87_unmarked` | Classical.choice, Quot.sound, propext |
| C88 | `Honeycomb.c88_teraquop` | Classical.choice, Quot.sound, propext |
| C88 | `Honeycomb.c88_outside` | Classical.choice, Quot.sound, propext |
| C89 | `Honeycomb.c89_corrects` | Classical.choice, Quot.sound, propext |
| C89 | `Honeycomb.c89_corrects_ancillas` | Classical.choice, Quot.sound, propext |
| C89 | `Honeycomb.c89_code_distance` | Classical.choice, Quot.sound, propext |
| C89 | `Honeycomb.c89_all_correct` | Classical.choice, Quot.sound, propext |
| C89 | `Honeycomb.c89_exists` | Classical.choice, Quot.sound, propext |
| C90 | `Honeycomb.c90_least` | Classical.choice, Quot.sound, propext |
| C90 | `Honeycomb.c90_least_vertical` | Classical.choice, Quot.sound, propext |
| C90 | `Honeycomb.c90_no_decoder` | Classical.choice, Quot.sound, propext |
| C90 | `Honeycomb.c90_no_decoder_any_style` | Classical.choice, Quot.sound, propext |
| C91 | `Honeycomb.c91_reads` | Classical.choice, Quot.sound, propext |
| C91 | `Honeycomb.c91_threshold` | Classical.choice, Quot.sound, propext |
| C91 | `Honeycomb.c91_fractions` | Classical.choice, Quot.sound, propext |
| C91 | `Honeycomb.c91_lambda` | Classical.choice, Quot.sound, propext |
| C91 | `Honeycomb.c91_pipeline` | Classical.choice, Quot.sound, propext |
| C92 | `Honeycomb.c92_no_arguments` | Classical.choice, Quot.sound, propext |
| C92 | `Honeycomb.c92_reads` | Classical.choice, Quot.sound, propext |
| C92 | `Honeycomb.c92_order` | Classical.choice, Quot.sound, propext |
| C92 | `Honeycomb.c92_twice` | Classical.choice, Quot.sound, propext |
| C92 | `Honeycomb.c92_unreadable` | Classical.choice, Quot.sound, propext |
| C92 | `Honeycomb.c92_empty_directories` | Classical.choice, Quot.sound, propext |
| C92 | `Honeycomb.c92_aggregate` | Classical.choice, Quot.sound, propext |
| C93 | `Honeycomb.c93_example` | Classical.choice, Quot.sound, propext |
| C94 | `Honeycomb.c94_errors` | Classical.choice, Quot.sound, propext |
| C94 | `Honeycomb.c94_circuit` | Classical.choice, Quot.sound, propext |
| C94 | `Honeycomb.c94_idle` | Classical.choice, Quot.sound, propext |
| C94 | `Honeycomb.c94_problems` | Classical.choice, Quot.sound, propext |
| C94 | `Honeycomb.c94_files` | Classical.choice, Quot.sound, propext |
| C94 | `Honeycomb.c94_unused` | Classical.choice, Quot.sound, propext |
| C95 | `Honeycomb.c95_counts` | Classical.choice, Quot.sound, propext |
| C95 | `Honeycomb.c95_bounds` | Classical.choice, Quot.sound, propext |
| C95 | `Honeycomb.c95_oracle` | Classical.choice, Quot.sound, propext |
| C95 | `Honeycomb.c95_file` | Classical.choice, Quot.sound, propext |
| C95 | `Honeycomb.c95_script` | Classical.choice, Quot.sound, propext |
| C95 | `Honeycomb.c95_completes` | Classical.choice, Quot.sound, propext |
| C95 | `Honeycomb.c95_no_noise` | Classical.choice, Quot.sound, propext |
| C95 | `Honeycomb.c95_few_errors` | Classical.choice, Quot.sound, propext |
| C95 | `Honeycomb.c95_no_noise_total` | Classical.choice, Quot.sound, propext |
| C96 | `Honeycomb.c96_horizontal_exact` | Classical.choice, Quot.sound, propext |
| C96 | `Honeycomb.c96_three_quarters` | Classical.choice, Quot.sound, propext |
| C96 | `Honeycomb.c96_least_horizontal` | Classical.choice, Quot.sound, propext |
| C96 | `Honeycomb.c96_no_decoder` | Classical.choice, Quot.sound, propext |
| C97 | `Honeycomb.c97_symptom` | Classical.choice, Quot.sound, propext |
| C97 | `Honeycomb.c97_local` | Classical.choice, Quot.sound, propext |
| C98 | `Honeycomb.c98_experiment` | Classical.choice, Quot.sound, propext |
| C98 | `Honeycomb.c98_two_logical_qubits` | Classical.choice, Quot.sound, propext |
| C98 | `Honeycomb.c98_detectors` | Classical.choice, Quot.sound, propext |
| C98 | `Honeycomb.c98_undetected` | Classical.choice, Quot.sound, propext |
| C99 | `Honeycomb.c99_graphlike` | Classical.choice, Quot.sound, propext |
| C99 | `Honeycomb.c99_channels` | Classical.choice, Quot.sound, propext |
| C100 | `Honeycomb.c100_decomposes` | Classical.choice, Quot.sound, propext |
| C101 | `Honeycomb.c101_watches` | Classical.choice, Quot.sound, propext |
| C101 | `Honeycomb.c101_watches_data` | Classical.choice, Quot.sound, propext |
| C102 | `Honeycomb.c102_likelihood` | Classical.choice, Quot.sound, propext |
| C102 | `Honeycomb.c102_explains` | Classical.choice, Quot.sound, propext |
| C102 | `Honeycomb.c102_most_likely` | Classical.choice, Quot.sound, propext |
| C102 | `Honeycomb.c102_pymatching` | Classical.choice, Quot.sound, propext |
| C103 | `Honeycomb.c103_label_noise` | Classical.choice, Quot.sound, propext |
| C103 | `Honeycomb.c103_label` | Classical.choice, Quot.sound, propext |
| C103 | `Honeycomb.c103_edge` | Classical.choice, Quot.sound, propext |
| C103 | `Honeycomb.c103_prev` | Classical.choice, Quot.sound, propext |
| C104 | `Honeycomb.c104_graph` | Classical.choice, Quot.sound, propext |
| C104 | `Honeycomb.c104_distance` | Classical.choice, Quot.sound, propext |
| C104 | `Honeycomb.c104_explained` | Classical.choice, Quot.sound, propext |
| C104 | `Honeycomb.c104_corrects` | Classical.choice, Quot.sound, propext |
| C104 | `Honeycomb.c104_pymatching` | Classical.choice, Quot.sound, propext |
| C104 | `Honeycomb.c104_exists` | Classical.choice, Quot.sound, propext |
| C104 | `Honeycomb.c104_script` | Classical.choice, Quot.sound, propext |
| C105 | `Honeycomb.c105_even` | Classical.choice, Quot.sound, propext |
| C105 | `Honeycomb.c105_components` | Classical.choice, Quot.sound, propext |
| C105 | `Honeycomb.c105_sizes` | Classical.choice, Quot.sound, propext |
| C106 | `Honeycomb.c106_glitch` | Classical.choice, Quot.sound, propext |
| C106 | `Honeycomb.c106_errors` | Classical.choice, Quot.sound, propext |
| C107 | `Honeycomb.c107_region` | Classical.choice, Quot.sound, propext |
| C107 | `Honeycomb.c107_errors` | Classical.choice, Quot.sound, propext |
| C108 | `Honeycomb.c108_patterns` | Classical.choice, Quot.sound, propext |
| C108 | `Honeycomb.c108_undecided` | Classical.choice, Quot.sound, propext |
| C108 | `Honeycomb.c108_count` | Classical.choice, Quot.sound, propext |
| C109 | `Honeycomb.c109_suppressed` | Classical.choice, Quot.sound, propext |
| C109 | `Honeycomb.c109_suppressed_ancillas` | Classical.choice, Quot.sound, propext |
| C109 | `Honeycomb.c109_possible` | Classical.choice, Quot.sound, propext |
| C109 | `Honeycomb.c109_never_zero` | Classical.choice, Quot.sound, propext |
| C109 | `Honeycomb.c109_zero` | Classical.choice, Quot.sound, propext |
| C110 | `Honeycomb.c110_threshold` | Classical.choice, Quot.sound, propext |
| C110 | `Honeycomb.c110_threshold_ancillas` | Classical.choice, Quot.sound, propext |
| C110 | `Honeycomb.c110_reliable` | Classical.choice, Quot.sound, propext |
| C111 | `Honeycomb.c111_parts` | Classical.choice, Quot.sound, propext |
| C111 | `Honeycomb.c111_edges` | Classical.choice, Quot.sound, propext |
| C111 | `Honeycomb.c111_threshold` | Classical.choice, Quot.sound, propext |
| C111 | `Honeycomb.c111_uniform` | Classical.choice, Quot.sound, propext |
| C111 | `Honeycomb.c111_probabilities` | Classical.choice, Quot.sound, propext |
| C111 | `Honeycomb.c111_reliable` | Classical.choice, Quot.sound, propext |
| C112 | `Honeycomb.c112_edges` | Classical.choice, Quot.sound, propext |
| C112 | `Honeycomb.c112_degree` | Classical.choice, Quot.sound, propext |
| C112 | `Honeycomb.c112_threshold` | Classical.choice, Quot.sound, propext |
| C112 | `Honeycomb.c112_reliable` | Classical.choice, Quot.sound, propext |
| C112 | `Honeycomb.c112_exists` | Classical.choice, Quot.sound, propext |
| C113 | `Honeycomb.c113_undetected` | Classical.choice, Quot.sound, propext |
| C113 | `Honeycomb.c113_distance` | Classical.choice, Quot.sound, propext |
| C113 | `Honeycomb.c113_any` | Classical.choice, Quot.sound, propext |
| C113 | `Honeycomb.c113_scaling` | Classical.choice, Quot.sound, propext |
| C114 | `Honeycomb.c114_upper` | Classical.choice, Quot.sound, propext |
| C114 | `Honeycomb.c114_lower` | Classical.choice, Quot.sound, propext |
| C114 | `Honeycomb.c114_fraction` | Classical.choice, Quot.sound, propext |
| C114 | `Honeycomb.c114_silent` | Classical.choice, Quot.sound, propext |
| C115 | `Honeycomb.c115_bounds` | Classical.choice, Quot.sound, propext |
| C115 | `Honeycomb.c115_decoding` | Classical.choice, Quot.sound, propext |
| C115 | `Honeycomb.c115_figures` | Classical.choice, Quot.sound, propext |
| C116 | `Honeycomb.c116_estimate` | Classical.choice, Quot.sound, propext |
| C116 | `Honeycomb.c116_unbiased` | Classical.choice, Quot.sound, propext |
| C116 | `Honeycomb.c116_decoding` | Classical.choice, Quot.sound, propext |
| C117 | `Honeycomb.c117_batches` | Classical.choice, Quot.sound, propext |
| C117 | `Honeycomb.c117_bounds` | Classical.choice, Quot.sound, propext |
| C117 | `Honeycomb.c117_estimate` | Classical.choice, Quot.sound, propext |
| C117 | `Honeycomb.c117_mean` | Classical.choice, Quot.sound, propext |
| C117 | `Honeycomb.c117_decoding` | Classical.choice, Quot.sound, propext |
| C117 | `Honeycomb.c117_rate_biased` | Classical.choice, Quot.sound, propext |
| C118 | `Honeycomb.c118_mean` | Classical.choice, Quot.sound, propext |
| C118 | `Honeycomb.c118_fraction` | Classical.choice, Quot.sound, propext |
| C119 | `Honeycomb.c119_rates` | Classical.choice, Quot.sound, propext |
| C119 | `Honeycomb.c119_no_errors` | Classical.choice, Quot.sound, propext |
| C120 | `Honeycomb.c120_ratio` | Classical.choice, Quot.sound, propext |
| C121 | `Honeycomb.c121_width` | Classical.choice, Quot.sound, propext |
| C122 | `Honeycomb.c122_slope_range` | Classical.choice, Quot.sound, propext |
| C122 | `Honeycomb.c122_output_range` | Classical.choice, Quot.sound, propext |
| C123 | `Honeycomb.c123_continuous` | Classical.choice, Quot.sound, propext |
| C123 | `Honeycomb.c123_plotted` | Classical.choice, Quot.sound, propext |
| C124 | `Honeycomb.c124_trend` | Classical.choice, Quot.sound, propext |
| C124 | `Honeycomb.c124_exact` | Classical.choice, Quot.sound, propext |
| C125 | `Honeycomb.c125_converges` | Classical.choice, Quot.sound, propext |
| C126 | `Honeycomb.c126_called` | Classical.choice, Quot.sound, propext |
| C126 | `Honeycomb.c126_missing` | Classical.choice, Quot.sound, propext |
| C126 | `Honeycomb.c126_quote` | Classical.choice, Quot.sound, propext |
| C126 | `Honeycomb.c126_shots` | Classical.choice, Quot.sound, propext |
