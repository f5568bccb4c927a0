'Verif.Props.C01_workItems_partition' depends on axioms: [propext, Classical.choice, Quot.sound]
'Verif.Props.C02_schedule_independent' depends on axioms: [propext, Classical.choice, Quot.sound]
'Verif.Props.C02_meaning' depends on axioms: [propext, Classical.choice, Quot.sound]
'Verif.Props.C03_one_qubit_gates' depends on axioms: [propext, Classical.choice, Quot.sound]
'Verif.Props.C04_swap' depends on axioms: [propext, Classical.choice, Quot.sound]
'Verif.Props.C04_swap_no_arithmetic' depends on axioms: [propext, Classical.choice, Quot.sound]
'Verif.Props.C05_ecr' depends on axioms: [propext, Classical.choice, Quot.sound]
'Verif.Props.C06_permutation' depends on axioms: [propext, Classical.choice, Quot.sound]
'Verif.Props.C06_rejects' depends on axioms: [propext, Classical.choice, Quot.sound]
'Verif.Props.C07_dense' depends on axioms: [propext, Classical.choice, Quot.sound]
'Verif.Props.C08_sparse_eq_dense' depends on axioms: [propext, Classical.choice, Quot.sound]
'Verif.Props.C09_simd_eq_scalar' depends on axioms: [propext, Classical.choice, Quot.sound]
'Verif.Props.C10_batched' depends on axioms: [propext, Classical.choice, Quot.sound]
'Verif.Props.C11_pauli_gate' depends on axioms: [propext, Classical.choice, Quot.sound]
'Verif.Props.C11_apply_to_state' depends on axioms: [propext, Classical.choice, Quot.sound]
'Verif.Props.C11_explicit' depends on axioms: [propext, Classical.choice, Quot.sound]
'Verif.Props.C12_exponential' depends on axioms: [propext, Classical.choice, Quot.sound]
'Verif.Props.C12_pauli_rotation' depends on axioms: [propext, Classical.choice, Quot.sound]
'Verif.Props.C12_eigen' depends on axioms: [propext, Classical.choice, Quot.sound]
'Verif.Props.C12_square' depends on axioms: [propext, Classical.choice, Quot.sound]
'Verif.Props.C13_norm' depends on axioms: [propext, Classical.choice, Quot.sound]
'Verif.Props.C14_inverse_partial' depends on axioms: [propext, Classical.choice, Quot.sound]
'Verif.Props.C14_has_inverse' depends on axioms: [propext, Classical.choice, Quot.sound]
'Verif.Props.C14_pauli_counterexample' depends on axioms: [propext, Classical.choice, Quot.sound]
'Verif.Props.C15_matrix' depends on axioms: [propext, Classical.choice, Quot.sound]
'Verif.Props.C15_parametric' depends on axioms: [propext, Classical.choice, Quot.sound]
'Verif.Props.C16_bounds_partial' depends on axioms: [propext, Classical.choice, Quot.sound]
'Verif.Props.C16_pauli_counterexample' depends on axioms: [propext, Classical.choice, Quot.sound]
'Verif.Props.C17_lists' depends on axioms: [propext, Classical.choice, Quot.sound]
'Verif.Props.C17_accepts_iff' depends on axioms: [propext, Classical.choice, Quot.sound]
'Verif.Props.C17_rejects' depends on axioms: [propext, Classical.choice, Quot.sound]
'Verif.Props.C18_product' depends on axioms: [propext, Classical.choice, Quot.sound]
'Verif.Props.C18_monoid' depends on axioms: [propext, Classical.choice, Quot.sound]
'Verif.Props.C19_roundtrip' depends on axioms: [propext, Classical.choice, Quot.sound]
'Verif.Props.C19_lists' depends on axioms: [propext, Classical.choice, Quot.sound]
'Verif.Props.C20_add_single' depends on axioms: [propext, Classical.choice, Quot.sound]
'Verif.Props.C20_lists' depends on axioms: [propext, Classical.choice, Quot.sound]
'Verif.Props.C21_operator_dagger' depends on axioms: [propext, Classical.choice, Quot.sound]
'Verif.Props.C21_dagger' depends on axioms: [propext, Classical.choice, Quot.sound]
'Verif.Props.C22_expectation' depends on axioms: [propext, Classical.choice, Quot.sound]
'Verif.Props.C22_expectation_batched' depends on axioms: [propext, Classical.choice, Quot.sound]
'Verif.Props.C23_transition' depends on axioms: [propext, Classical.choice, Quot.sound]
'Verif.Props.C23_sizes_unchecked' depends on axioms: [propext, Classical.choice, Quot.sound]
'Verif.Props.C24_batched_transition_partial' depends on axioms: [propext, Classical.choice, Quot.sound]
'Verif.Props.C24_mismatch' depends on axioms: [propext, Classical.choice, Quot.sound]
'Verif.Props.C24_counterexample' depends on axioms: [propext, Classical.choice, Quot.sound]
'Verif.Props.C25_matrix_partial' depends on axioms: [propext, Classical.choice, Quot.sound]
'Verif.Props.C25_counterexample' depends on axioms: [propext, Classical.choice, Quot.sound]
'Verif.Props.C26_apply' depends on axioms: [propext, Classical.choice, Quot.sound]
'Verif.Props.C26_full_matrix' depends on axioms: [propext, Classical.choice, Quot.sound]
'Verif.Props.C26_values_partial' depends on axioms: [propext, Classical.choice, Quot.sound]
'Verif.Props.C26_mismatch' depends on axioms: [propext, Classical.choice, Quot.sound]
'Verif.Props.C26_counterexample' depends on axioms: [propext, Classical.choice, Quot.sound]
'Verif.Props.C26_values_counterexample' depends on axioms: [propext, Classical.choice, Quot.sound]
'Verif.Props.C27_optimize' depends on axioms: [propext, Classical.choice, Quot.sound]
'Verif.Props.C27_optimize_total' depends on axioms: [propext, Classical.choice, Quot.sound]
'Verif.Props.C28_arithmetic' depends on axioms: [propext, Classical.choice, Quot.sound]
'Verif.Props.C29_hermitian_partial' depends on axioms: [propext, Classical.choice, Quot.sound]
'Verif.Props.C29_counterexample_product' depends on axioms: [propext, Classical.choice, Quot.sound]
'Verif.Props.C29_counterexample_pauli' depends on axioms: [propext, Classical.choice, Quot.sound]
'Verif.Props.C29_counterexample_complete' depends on axioms: [propext, Classical.choice, Quot.sound]
'Verif.Props.C29_counterexample_batched' depends on axioms: [propext, Classical.choice, Quot.sound]
'Verif.Props.C30_slots' depends on axioms: [propext, Classical.choice, Quot.sound]
'Verif.Props.C30_load' depends on axioms: [propext, Classical.choice, Quot.sound]
'Verif.Props.C30_add' depends on axioms: [propext, Classical.choice, Quot.sound]
'Verif.Props.C30_mul' depends on axioms: [propext, Classical.choice, Quot.sound]
'Verif.Props.C30_dagger' depends on axioms: [propext, Classical.choice, Quot.sound]
'Verif.Props.C31_scale_partial' depends on axioms: [propext, Classical.choice, Quot.sound]
'Verif.Props.C31_counterexample_wrong' depends on axioms: [propext, Classical.choice, Quot.sound]
'Verif.Props.C31_counterexample_ub' depends on axioms: [propext, Classical.choice, Quot.sound]
'Verif.Props.C32_add_partial' depends on axioms: [propext, Classical.choice, Quot.sound]
'Verif.Props.C32_counterexample_size' depends on axioms: [propext, Classical.choice, Quot.sound]
'Verif.Props.C32_counterexample_mul' depends on axioms: [propext, Classical.choice, Quot.sound]
'Verif.Props.C33_zero' depends on axioms: [propext, Classical.choice, Quot.sound]
'Verif.Props.C33_zero_batched' depends on axioms: [propext, Classical.choice, Quot.sound]
'Verif.Props.C33_marginal' depends on axioms: [propext, Classical.choice, Quot.sound]
'Verif.Props.C33_marginal_batched' depends on axioms: [propext, Classical.choice, Quot.sound]
'Verif.Props.C33_distribution' depends on axioms: [propext, Classical.choice, Quot.sound]
'Verif.Props.C34_draw' depends on axioms: [propext, Classical.choice, Quot.sound]
'Verif.Props.C34_sampling' depends on axioms: [propext, Classical.choice, Quot.sound]
'Verif.Props.C34_any_state' depends on axioms: [propext, Classical.choice, Quot.sound]
'Verif.Props.C34_batched' depends on axioms: [propext, Classical.choice, Quot.sound]
'Verif.Props.C34_zero_norm_never_returns' depends on axioms: [propext, Classical.choice, Quot.sound]
'Verif.Props.C35_measure' depends on axioms: [propext, Classical.choice, Quot.sound]
'Verif.Props.C35_measure_any' depends on axioms: [propext, Classical.choice, Quot.sound]
'Verif.Props.C35_repeatable' depends on axioms: [propext, Classical.choice, Quot.sound]
'Verif.Props.C35_rejected' depends on axioms: [propext, Classical.choice, Quot.sound]
'Verif.Props.C35_construct' depends on axioms: [propext, Classical.choice, Quot.sound]
'Verif.Props.C35_batched' depends on axioms: [propext, Classical.choice, Quot.sound]
'Verif.Props.C35_batched_rejected' depends on axioms: [propext, Classical.choice, Quot.sound]
'Verif.Props.C35_unnormalised' depends on axioms: [propext, Classical.choice, Quot.sound]
'Verif.Props.C36_select' depends on axioms: [propext, Classical.choice, Quot.sound]
'Verif.Props.C36_probabilities' depends on axioms: [propext, Classical.choice, Quot.sound]
'Verif.Props.C36_accepts' depends on axioms: [propext, Classical.choice, Quot.sound]
'Verif.Props.C36_batched_partial' depends on axioms: [propext, Classical.choice, Quot.sound]
'Verif.Props.C36_batched_counterexample' depends on axioms: [propext, Classical.choice, Quot.sound]
'Verif.Props.C36_inverse' depends on axioms: [propext, Classical.choice, Quot.sound]
'Verif.Props.C36_measurement_rejected' depends on axioms: [propext, Classical.choice, Quot.sound]
'Verif.Props.C36_param_accepts' depends on axioms: [propext, Classical.choice, Quot.sound]
'Verif.Props.C36_param_measurement_rejected' depends on axioms: [propext, Classical.choice, Quot.sound]
'Verif.Props.C37_channels' depends on axioms: [propext, Classical.choice, Quot.sound]
'Verif.Props.C37_rejects' depends on axioms: [propext, Classical.choice, Quot.sound]
'Verif.Props.C38_in_order' depends on axioms: [propext, Classical.choice, Quot.sound]
'Verif.Props.C38_operators' depends on axioms: [propext, Classical.choice, Quot.sound]
'Verif.Props.C38_append' depends on axioms: [propext, Classical.choice, Quot.sound]
'Verif.Props.C38_total' depends on axioms: [propext, Classical.choice, Quot.sound]
'Verif.Props.C38_copy' depends on axioms: [propext, Classical.choice, Quot.sound]
'Verif.Props.C39_inverse_partial' depends on axioms: [propext, Classical.choice, Quot.sound]
'Verif.Props.C39_measurement' depends on axioms: [propext, Classical.choice, Quot.sound]
'Verif.Props.C39_random_counterexample' depends on axioms: [propext, Classical.choice, Quot.sound]
'Verif.Props.C39_pauli_counterexample' depends on axioms: [propext, Classical.choice, Quot.sound]
'Verif.Props.C39_same_draws' depends on axioms: [propext, Classical.choice, Quot.sound]
'Verif.Props.C40_merges_partial' depends on axioms: [propext, Classical.choice, Quot.sound]
'Verif.Props.C40_total' depends on axioms: [propext, Classical.choice, Quot.sound]
'Verif.Props.C40_families_partial' depends on axioms: [propext, Classical.choice, Quot.sound]
'Verif.Props.C40_counterexample' depends on axioms: [propext, Classical.choice, Quot.sound]
'Verif.Props.C40_counterexample_no_operand' depends on axioms: [propext, Classical.choice, Quot.sound]
'Verif.Props.C41_merge_partial' depends on axioms: [propext, Classical.choice, Quot.sound]
'Verif.Props.C41_exact' depends on axioms: [propext, Classical.choice, Quot.sound]
'Verif.Props.C41_permutation' depends on axioms: [propext, Classical.choice, Quot.sound]
'Verif.Props.C41_counterexample' depends on axioms: [propext, Classical.choice, Quot.sound]
'Verif.Props.C41_deterministic' depends on axioms: [propext, Classical.choice, Quot.sound]
'Verif.Props.C41_probabilistic' depends on axioms: [propext, Classical.choice, Quot.sound]
'Verif.Props.C41_measurement' depends on axioms: [propext, Classical.choice, Quot.sound]
'Verif.Props.C41_measurement_effect' depends on axioms: [propext, Classical.choice, Quot.sound]
'Verif.Props.C42_depth_partial' depends on axioms: [propext, Classical.choice, Quot.sound]
'Verif.Props.C42_at_most' depends on axioms: [propext, Classical.choice, Quot.sound]
'Verif.Props.C42_throws' depends on axioms: [propext, Classical.choice, Quot.sound]
'Verif.Props.C43_missing' depends on axioms: [propext, Classical.choice, Quot.sound]
'Verif.Props.C43_extra' depends on axioms: [propext, Classical.choice, Quot.sound]
'Verif.Props.C43_keys' depends on axioms: [propext, Classical.choice, Quot.sound]
'Verif.Props.C43_batched' depends on axioms: [propext, Classical.choice, Quot.sound]
'Verif.Props.C43_missing_plain' depends on axioms: [propext, Classical.choice, Quot.sound]
'Verif.Props.C43_extra_batched' depends on axioms: [propext, Classical.choice, Quot.sound]
'Verif.Props.C44_applied_iff' depends on axioms: [propext, Classical.choice, Quot.sound]
'Verif.Props.C44_batched_partial' depends on axioms: [propext, Classical.choice, Quot.sound]
'Verif.Props.C44_rejected' depends on axioms: [propext, Classical.choice, Quot.sound]
'Verif.Props.C44_counterexample' depends on axioms: [propext, Classical.choice, Quot.sound]
'Verif.Props.C44_counterexample_lost' depends on axioms: [propext, Classical.choice, Quot.sound]
'Verif.Props.C45_paths' depends on axioms: [propext, Classical.choice, Quot.sound]
'Verif.Props.C45_shots' depends on axioms: [propext, Classical.choice, Quot.sound]
'Verif.Props.C45_runs_partial' depends on axioms: [propext, Classical.choice, Quot.sound]
'Verif.Props.C45_measurement' depends on axioms: [propext, Classical.choice, Quot.sound]
'Verif.Props.C45_counterexample' depends on axioms: [propext, Classical.choice, Quot.sound]
'Verif.Props.C46_gradient_partial' depends on axioms: [propext, Classical.choice, Quot.sound]
'Verif.Props.C46_refuses_non_hermitian' depends on axioms: [propext, Classical.choice, Quot.sound]
'Verif.Props.C46_controlled_counterexample' depends on axioms: [propext, Classical.choice, Quot.sound]
'Verif.Props.C46_larger_register_partial' depends on axioms: [propext, Classical.choice, Quot.sound]
'Verif.Props.C46_outside' depends on axioms: [propext, Classical.choice, Quot.sound]
'Verif.Props.C47_gate_partial' depends on axioms: [propext, Classical.choice, Quot.sound]
'Verif.Props.C47_param_gate_partial' depends on axioms: [propext, Classical.choice, Quot.sound]
'Verif.Props.C47_circuit_partial' depends on axioms: [propext, Classical.choice, Quot.sound]
'Verif.Props.C47_conditions' depends on axioms: [propext, Classical.choice, Quot.sound]
'Verif.Props.C47_refused' depends on axioms: [propext, Classical.choice, Quot.sound]
'Verif.Props.C47_counterexample' depends on axioms: [propext, Classical.choice, Quot.sound]
'Verif.Props.C48_round_trip_partial' depends on axioms: [propext, Classical.choice, Quot.sound]
'Verif.Props.C48_accepts' depends on axioms: [propext, Classical.choice, Quot.sound]
'Verif.Props.C48_condition_counterexample' depends on axioms: [propext, Classical.choice, Quot.sound]
'Verif.Props.C48_bit_counterexample' depends on axioms: [propext, Classical.choice, Quot.sound]
'Verif.Props.C49_registers_partial' depends on axioms: [propext, Classical.choice, Quot.sound]
'Verif.Props.C49_stable' depends on axioms: [propext, Classical.choice, Quot.sound]
'Verif.Props.C49_counterexample' depends on axioms: [propext, Classical.choice, Quot.sound]
'Verif.Props.C50_gate' depends on axioms: [propext, Classical.choice, Quot.sound]
'Verif.Props.C50_pure' depends on axioms: [propext, Classical.choice, Quot.sound]
'Verif.Props.C50_throws' depends on axioms: [propext, Classical.choice, Quot.sound]
'Verif.Props.C51_get_trace' depends on axioms: [propext, Classical.choice, Quot.sound]
'Verif.Props.C51_unitary_gates' depends on axioms: [propext, Classical.choice, Quot.sound]
'Verif.Props.C51_partial_trace_partial' depends on axioms: [propext, Classical.choice, Quot.sound]
'Verif.Props.C51_partial_trace_throws' depends on axioms: [propext, Classical.choice, Quot.sound]
'Verif.Props.C51_league_counterexample' depends on axioms: [propext, Classical.choice, Quot.sound]
'Verif.Props.C52_flag_partial' depends on axioms: [propext, Classical.choice, Quot.sound]
'Verif.Props.C52_counterexample' depends on axioms: [propext, Classical.choice, Quot.sound]
'Verif.Props.C53_permutation' depends on axioms: [propext, Classical.choice, Quot.sound]
'Verif.Props.C53_reachable_partial' depends on axioms: [propext, Classical.choice, Quot.sound]
'Verif.Props.C53_counterexample' depends on axioms: [propext, Classical.choice, Quot.sound]
'Verif.Props.C54_expanded' depends on axioms: [propext, Classical.choice, Quot.sound]
'Verif.Props.C55_states_partial' depends on axioms: [propext, Classical.choice, Quot.sound]
'Verif.Props.C55_counterexample_race' depends on axioms: [propext, Classical.choice, Quot.sound]
'Verif.Props.C55_counterexample_chunk' depends on axioms: [propext, Classical.choice, Quot.sound]
'Verif.Props.C55_counterexample_qubits' depends on axioms: [propext, Classical.choice, Quot.sound]
'Verif.Props.C55_values_partial' depends on axioms: [propext, Classical.choice, Quot.sound]
'Verif.Props.C56_add_batched' depends on axioms: [propext, Classical.choice, Quot.sound]
'Verif.Props.C56_add_batched_throws' depends on axioms: [propext]
'Verif.Props.C56_basis_batched' depends on axioms: [propext, Classical.choice, Quot.sound]
'Verif.Props.C56_norm_batched' depends on axioms: [propext, Classical.choice, Quot.sound]
'Verif.Props.C56_norm_inner' depends on axioms: [propext, Classical.choice, Quot.sound]
'Verif.Props.C56_normalize' depends on axioms: [propext, Classical.choice, Quot.sound]
'Verif.Props.C56_linear_partial' depends on axioms: [propext, Classical.choice, Quot.sound]
'Verif.Props.C56_counterexample_size' depends on axioms: [propext, Classical.choice, Quot.sound]
'Verif.Props.C56_normalize_batched' depends on axioms: [propext, Classical.choice, Quot.sound]
'Verif.Props.C57_batched_partial' depends on axioms: [propext, Classical.choice, Quot.sound]
'Verif.Props.C57_entropy_partial' depends on axioms: [propext, Classical.choice, Quot.sound]
'Verif.Props.C57_counterexample' depends on axioms: [propext, Classical.choice, Quot.sound]
'Verif.Props.C58_formulas' depends on axioms: [propext, Classical.choice, Quot.sound]
'Verif.Props.C58_pure' depends on axioms: [propext, Classical.choice, Quot.sound]
'Verif.Props.C58_sampling' depends on axioms: [propext, Classical.choice, Quot.sound]
'Verif.Props.C58_throws' depends on axioms: [propext, Classical.choice, Quot.sound]
'Verif.Props.C59_setters' depends on axioms: [propext, Classical.choice, Quot.sound]
'Verif.Props.C59_arithmetic' depends on axioms: [propext, Classical.choice, Quot.sound]
'Verif.Props.C59_total' depends on axioms: [propext, Classical.choice, Quot.sound]
'Verif.Props.C59_coherence' depends on axioms: [propext, Classical.choice, Quot.sound]
'Verif.Props.C60_loads_defined' depends on axioms: [propext, Classical.choice, Quot.sound]
'Verif.Props.C61_pauli' depends on axioms: [propext, Classical.choice, Quot.sound]
'Verif.Props.C61_operator_partial' depends on axioms: [propext, Classical.choice, Quot.sound]
'Verif.Props.C61_counterexample' depends on axioms: [propext, Classical.choice, Quot.sound]
'Verif.Props.C61_operator_batched' depends on axioms: [propext, Classical.choice, Quot.sound]
'Verif.Props.C61_state' depends on axioms: [propext, Classical.choice, Quot.sound]
'Verif.Props.C61_batch' depends on axioms: [propext, Classical.choice, Quot.sound]
'Verif.Props.C61_density' depends on axioms: [propext, Classical.choice, Quot.sound]
'Verif.Props.C62_gate_partial' depends on axioms: [propext, Classical.choice, Quot.sound]
'Verif.Props.C62_param_gate_partial' depends on axioms: [propext, Classical.choice, Quot.sound]
'Verif.Props.C62_circuit_partial' depends on axioms: [propext, Classical.choice, Quot.sound]
'Verif.Props.C62_counterexample_target' depends on axioms: [propext, Classical.choice, Quot.sound]
'Verif.Props.C62_counterexample_values' depends on axioms: [propext, Classical.choice, Quot.sound]
'Verif.Props.C62_counterexample_permutation' depends on axioms: [propext, Classical.choice, Quot.sound]
'Verif.Props.C62_operator_partial' depends on axioms: [propext, Classical.choice, Quot.sound]
'Verif.Props.C62_counterexample_coef' depends on axioms: [propext, Classical.choice, Quot.sound]
'Verif.Props.C62_state_partial' depends on axioms: [propext, Classical.choice, Quot.sound]
'Verif.Props.C62_batch_partial' depends on axioms: [propext, Classical.choice, Quot.sound]
'Verif.Props.C62_density_partial' depends on axioms: [propext, Classical.choice, Quot.sound]
'Verif.Props.C62_counterexample_size' depends on axioms: [propext, Classical.choice, Quot.sound]
'Verif.Props.C62_counterexample_row' depends on axioms: [propext, Classical.choice, Quot.sound]
'Verif.Props.C63_meaning_partial' depends on axioms: [propext, Classical.choice, Quot.sound]
'Verif.Props.C63_comment_joins_words' depends on axioms: [propext, Classical.choice, Quot.sound]
'Verif.Props.C64_result' depends on axioms: [propext, Classical.choice, Quot.sound]
'Verif.Props.C64_default_shift' depends on axioms: [propext, Classical.choice, Quot.sound]
'Verif.Props.C64_fails' depends on axioms: [propext, Classical.choice, Quot.sound]
'Verif.Props.C64_energy_partial' depends on axioms: [propext, Classical.choice, Quot.sound]
'Verif.Props.C64_converges_partial' depends on axioms: [propext, Classical.choice, Quot.sound]
'Verif.Props.C64_counterexample' depends on axioms: [propext, Classical.choice, Quot.sound]
'Verif.Props.C65_result_partial' depends on axioms: [propext, Classical.choice, Quot.sound]
'Verif.Props.C65_exact' depends on axioms: [propext, Classical.choice, Quot.sound]
'Verif.Props.C65_power' depends on axioms: [propext, Classical.choice, Quot.sound]
'Verif.Props.C65_counterexample_iterations' depends on axioms: [propext, Classical.choice, Quot.sound]
'Verif.Props.C65_counterexample_eigenstate' depends on axioms: [propext, Classical.choice, Quot.sound]
'Verif.Props.C65_counterexample_zero' depends on axioms: [propext, Classical.choice, Quot.sound]
'Verif.Props.C65_counterexample_norm' depends on axioms: [propext, Classical.choice, Quot.sound]
'Verif.Props.C66_rejects' depends on axioms: [propext, Classical.choice, Quot.sound]
'Verif.Props.C66_tiny' depends on axioms: [propext, Classical.choice, Quot.sound]
'Verif.Props.C66_appends' depends on axioms: [propext, Classical.choice, Quot.sound]
'Verif.Props.C66_exact_partial' depends on axioms: [propext, Classical.choice, Quot.sound]
'Verif.Props.C66_trotter_partial' depends on axioms: [propext, Classical.choice, Quot.sound]
'Verif.Props.C66_converges' depends on axioms: [propext, Classical.choice, Quot.sound]
'Verif.Props.C66_counterexample' depends on axioms: [propext, Classical.choice, Quot.sound]
'Verif.Props.C66_counterexample_flag' depends on axioms: [propext, Classical.choice, Quot.sound]
'Verif.Props.C67_gate' depends on axioms: [propext, Classical.choice, Quot.sound]
'Verif.Props.C67_circuit' depends on axioms: [propext, Classical.choice, Quot.sound]
'Verif.Props.C67_norm' depends on axioms: [propext, Classical.choice, Quot.sound]
'Verif.Props.C68_gate' depends on axioms: [propext, Classical.choice, Quot.sound]
'Verif.Props.C68_circuit' depends on axioms: [propext, Classical.choice, Quot.sound]
'Verif.Props.C69_gate' depends on axioms: [propext, Classical.choice, Quot.sound]
'Verif.Props.C69_circuit' depends on axioms: [propext, Classical.choice, Quot.sound]
'Verif.Props.C70_sharing_exact' depends on axioms: [propext, Classical.choice, Quot.sound]
'Verif.Props.C70_sharing_partial' depends on axioms: [propext, Classical.choice, Quot.sound]
'Verif.Props.C70_new_state_independent' depends on axioms: [propext, Classical.choice, Quot.sound]
'Verif.Props.C70_new_batch_independent' depends on axioms: [propext, Classical.choice, Quot.sound]
'Verif.Props.C70_others_unchanged' depends on axioms: [propext, Classical.choice, Quot.sound]
'Verif.Props.C70_view_partial' depends on axioms: [propext, Classical.choice, Quot.sound]
'Verif.Props.C70_copied_handle_partial' depends on axioms: [propext, Classical.choice, Quot.sound]
'Verif.Props.C70_copy_equal' depends on axioms: [propext, Classical.choice, Quot.sound]
'Verif.Props.C70_own_view_races' depends on axioms: [propext, Classical.choice, Quot.sound]
'Verif.Props.C70_sharing_counterexample' depends on axioms: [propext, Classical.choice, Quot.sound]
'Verif.Props.C71_text_exact' depends on axioms: [propext, Classical.choice, Quot.sound]
'Verif.Props.C71_text_partial' depends on axioms: [propext, Classical.choice, Quot.sound]
'Verif.Props.C71_text_counterexample' depends on axioms: [propext, Classical.choice, Quot.sound]
'Verif.Props.C72_squared_norm' depends on axioms: [propext, Classical.choice, Quot.sound]
'Verif.Props.C72_zero_probability' depends on axioms: [propext, Classical.choice, Quot.sound]
'Verif.Props.C72_marginal_probability' depends on axioms: [propext, Classical.choice, Quot.sound]
'Verif.Props.C72_inner_product' depends on axioms: [propext, Classical.choice, Quot.sound]
'Verif.Props.C72_expectation' depends on axioms: [propext, Classical.choice, Quot.sound]
'Verif.Props.C72_circuit_probability' depends on axioms: [propext, Classical.choice, Quot.sound]
'Verif.Props.C72_circuit_expectation' depends on axioms: [propext, Classical.choice, Quot.sound]
'Verif.Props.C72_exact' depends on axioms: [propext, Classical.choice, Quot.sound]
'Verif.Props.C72_not_reproducible' depends on axioms: [propext, Classical.choice, Quot.sound]
'Verif.Props.C73_nearly_uniform' depends on axioms: [propext, Classical.choice, Quot.sound]
'Verif.Props.C73_relative_error' depends on axioms: [propext, Classical.choice, Quot.sound]
'Verif.Props.C73_biased' depends on axioms: [propext, Classical.choice, Quot.sound]
'Verif.Props.C74_runs' depends on axioms: [propext, Classical.choice, Quot.sound]
'Verif.Props.C74_density' depends on axioms: [propext, Classical.choice, Quot.sound]
'Verif.Props.C74_register' depends on axioms: [propext, Classical.choice, Quot.sound]
'Verif.Props.C74_expectation' depends on axioms: [propext, Classical.choice, Quot.sound]
'Verif.Props.C74_born' depends on axioms: [propext, Classical.choice, Quot.sound]
'Verif.Props.C74_channel' depends on axioms: [propext, Classical.choice, Quot.sound]
'Verif.Props.C75_any_state' depends on axioms: [propext, Classical.choice, Quot.sound]
'Verif.Props.C75_sampling' depends on axioms: [propext, Classical.choice, Quot.sound]
'Verif.Props.C75_returns' depends on axioms: [propext, Classical.choice, Quot.sound]
'Verif.Props.C75_batched' depends on axioms: [propext, Classical.choice, Quot.sound]
'Verif.Props.C75_density' depends on axioms: [propext, Classical.choice, Quot.sound]
'Verif.Props.C76_sampling' depends on axioms: [propext, Classical.choice, Quot.sound]
'Verif.Props.C76_tables' depends on axioms: [propext, Quot.sound]
'Verif.Props.C76_valid' depends on axioms: [propext, Classical.choice, Quot.sound]
'Verif.Props.C76_zero' depends on axioms: [propext, Classical.choice, Quot.sound]
'Verif.Props.C76_batched' depends on axioms: [propext, Classical.choice, Quot.sound]
'Verif.Props.C76_density' depends on axioms: [propext, Classical.choice, Quot.sound]
'Verif.Props.C76_circuit' depends on axioms: [propext, Classical.choice, Quot.sound]
'Verif.Props.C76_exact' depends on axioms: [propext, Classical.choice, Quot.sound]
'Verif.Props.C76_zero_returned' depends on axioms: [propext, Classical.choice, Quot.sound]
'Verif.Props.C77_returns' depends on axioms: [propext, Classical.choice, Quot.sound]
'Verif.Props.C77_shots' depends on axioms: [propext, Classical.choice, Quot.sound]
'Verif.Props.C77_mean' depends on axioms: [propext, Classical.choice, Quot.sound]
'Verif.Props.C77_variance' depends on axioms: [propext, Classical.choice, Quot.sound]
'Verif.Props.C77_deviation' depends on axioms: [propext, Classical.choice, Quot.sound]
'Verif.Props.C77_binomial' depends on axioms: [propext, Classical.choice, Quot.sound]
'Verif.Props.C77_density' depends on axioms: [propext, Classical.choice, Quot.sound]
'Verif.Props.C78_returns' depends on axioms: [propext, Classical.choice, Quot.sound]
'Verif.Props.C78_haar' depends on axioms: [propext, Classical.choice, Quot.sound]
'Verif.Props.C78_unique' depends on axioms: [propext, Classical.choice, Quot.sound]
'Verif.Props.C78_mean' depends on axioms: [propext, Classical.choice, Quot.sound]
'Verif.Props.C78_circuit' depends on axioms: [propext, Classical.choice, Quot.sound]
'Verif.Props.C78_batched' depends on axioms: [propext, Classical.choice, Quot.sound]
'Verif.Props.C78_batched_same' depends on axioms: [propext, Classical.choice, Quot.sound]
'Verif.Props.C78_batched_returns' depends on axioms: [propext, Classical.choice, Quot.sound]
'Verif.Props.C78_density' depends on axioms: [propext, Classical.choice, Quot.sound]
'Verif.Props.C79_regular' depends on axioms: [propext, Classical.choice, Quot.sound]
'Verif.Props.C79_density' depends on axioms: [propext, Classical.choice, Quot.sound]
'Verif.Props.C79_pauli' depends on axioms: [propext, Classical.choice, Quot.sound]
'Verif.Props.C79_observable' depends on axioms: [propext, Classical.choice, Quot.sound]
'Verif.Props.C79_limit' depends on axioms: [propext, Classical.choice, Quot.sound]
'Verif.Props.C80_state' depends on axioms: [propext, Classical.choice, Quot.sound]
'Verif.Props.C80_state_determines' depends on axioms: [propext, Classical.choice, Quot.sound]
'Verif.Props.C80_batched' depends on axioms: [propext, Classical.choice, Quot.sound]
'Verif.Props.C80_density' depends on axioms: [propext, Classical.choice, Quot.sound]
'Verif.Props.C80_labels' depends on axioms: [propext, Classical.choice, Quot.sound]
'Verif.Props.C80_operator' depends on axioms: [propext, Classical.choice, Quot.sound]
'Verif.Props.C80_operator_determines' depends on axioms: [propext, Classical.choice, Quot.sound]
'Verif.Props.C80_operator_default' depends on axioms: [propext, Classical.choice, Quot.sound]
'Verif.Props.C80_gate_partial' depends on axioms: [propext, Classical.choice, Quot.sound]
'Verif.Props.C80_gate_determines_partial' depends on axioms: [propext, Classical.choice, Quot.sound]
'Verif.Props.C80_counterexample_u2' depends on axioms: [propext, Classical.choice, Quot.sound]
'Verif.Props.C80_pauli' depends on axioms: [propext, Classical.choice, Quot.sound]
'Verif.Props.C80_counterexample_control_values' depends on axioms: [propext, Classical.choice, Quot.sound]
'Verif.Props.C80_counterexample_coefficient' depends on axioms: [propext, Classical.choice, Quot.sound]
'Verif.Props.C80_measurement' depends on axioms: [propext, Classical.choice, Quot.sound]
'Verif.Props.C80_probabilistic' depends on axioms: [propext, Classical.choice, Quot.sound]
'Verif.Props.C80_parametric' depends on axioms: [propext, Classical.choice, Quot.sound]
'Verif.Props.C80_counterexample_parametric' depends on axioms: [propext, Classical.choice, Quot.sound]
'Verif.Props.C81_types' depends on axioms: [propext, Classical.choice, Quot.sound]
'Verif.Props.C81_cast_partial' depends on axioms: [propext, Classical.choice, Quot.sound]
'Verif.Props.C81_created' does not depend on any axioms
'Verif.Props.C81_null' does not depend on any axioms
'Verif.Props.C81_inverse_counterexample' does not depend on any axioms
'Verif.Props.C81_space_counterexample' does not depend on any axioms
'Verif.Props.C81_circuit_types' depends on axioms: [propext, Classical.choice, Quot.sound]
'Verif.Props.C81_running' depends on axioms: [propext, Classical.choice, Quot.sound]
'Verif.Props.C81_inverse' depends on axioms: [propext, Classical.choice, Quot.sound]
'Verif.Props.C81_made' depends on axioms: [propext, Classical.choice, Quot.sound]
'Verif.Props.C81_noise_partial' depends on axioms: [propext, Classical.choice, Quot.sound]
'Verif.Props.C81_gradient_partial' depends on axioms: [propext, Classical.choice, Quot.sound]
'Verif.Props.C81_export_counterexample' depends on axioms: [propext, Classical.choice, Quot.sound]
'Verif.Props.C81_noise_counterexample' depends on axioms: [propext, Classical.choice, Quot.sound]
'Verif.Props.C81_made_types' depends on axioms: [propext, Classical.choice, Quot.sound]
'Verif.Props.C81_flatten_made' depends on axioms: [propext, Classical.choice, Quot.sound]
'Verif.Props.C81_flatten_counterexample' depends on axioms: [propext, Classical.choice, Quot.sound]
'Verif.Props.C81_optimize_phase_counterexample' depends on axioms: [propext, Classical.choice, Quot.sound]
'Verif.Props.C81_optimize_choice_counterexample' depends on axioms: [propext, Classical.choice, Quot.sound]
'Verif.Props.C81_gradient_counterexample' depends on axioms: [propext, Classical.choice, Quot.sound]
'Verif.Props.C82_agree' depends on axioms: [propext, Classical.choice, Quot.sound]
'Verif.Props.C82_partial' depends on axioms: [propext, Classical.choice, Quot.sound]
'Verif.Props.C82_wiped' depends on axioms: [propext, Classical.choice, Quot.sound]
'Verif.Props.C82_negative' depends on axioms: [propext, Classical.choice, Quot.sound]
'Verif.Props.C82_counterexample' depends on axioms: [propext, Classical.choice, Quot.sound]
'Verif.Props.C83_own_space' depends on axioms: [propext, Classical.choice, Quot.sound]
'Verif.Props.C83_own_space_batched' depends on axioms: [propext, Classical.choice, Quot.sound]
'Verif.Props.C83_any_space' depends on axioms: [propext, Classical.choice, Quot.sound]
'Verif.Props.C83_refused' depends on axioms: [propext, Classical.choice, Quot.sound]
'Verif.Props.C83_finished' depends on axioms: [propext, Classical.choice, Quot.sound]
'Verif.Props.C83_finished_batched' depends on axioms: [propext, Classical.choice, Quot.sound]
'Verif.Props.C83_stops' depends on axioms: [propext, Classical.choice, Quot.sound]
'Verif.Props.C83_inverse' depends on axioms: [propext, Classical.choice, Quot.sound]
'Verif.Props.C84_entropy' depends on axioms: [propext, Classical.choice, Quot.sound]
'Verif.Props.C84_batched_partial' depends on axioms: [propext, Classical.choice, Quot.sound]
'Verif.Props.C84_density' depends on axioms: [propext, Classical.choice, Quot.sound]
'Verif.Props.C84_batched_nan' depends on axioms: [propext, Classical.choice, Quot.sound]
'Verif.Props.C84_half_counterexample' depends on axioms: [propext, Classical.choice, Quot.sound]
'Verif.Props.C84_exact' depends on axioms: [propext, Classical.choice, Quot.sound]
'Verif.Props.C85_sharing_partial' depends on axioms: [propext, Classical.choice, Quot.sound]
'Verif.Props.C85_independent' depends on axioms: [propext, Classical.choice, Quot.sound]
'Verif.Props.C85_view' depends on axioms: [propext, Classical.choice, Quot.sound]
'Verif.Props.C85_load_counterexample' depends on axioms: [propext, Classical.choice, Quot.sound]
'Verif.Props.C85_hermitian_counterexample' depends on axioms: [propext, Classical.choice, Quot.sound]
'Verif.Props.C86_accepted_partial' depends on axioms: [propext, Classical.choice, Quot.sound]
'Verif.Props.C86_not_strict' depends on axioms: [propext, Classical.choice, Quot.sound]
'Verif.Props.C87_gate_partial' depends on axioms: [propext, Classical.choice, Quot.sound]
'Verif.Props.C87_param_gate_partial' depends on axioms: [propext, Classical.choice, Quot.sound]
'Verif.Props.C87_circuit_partial' depends on axioms: [propext, Classical.choice, Quot.sound]
'Verif.Props.C87_unique' depends on axioms: [propext, Classical.choice, Quot.sound]
'Verif.Props.C87_counterexample_target' depends on axioms: [propext, Classical.choice, Quot.sound]
'Verif.Props.C87_counterexample_object' depends on axioms: [propext, Classical.choice, Quot.sound]
'Verif.Props.C87_conversions' depends on axioms: [propext, Classical.choice, Quot.sound]
'Verif.Props.C88_registers' depends on axioms: [propext, Classical.choice, Quot.sound]
'Verif.Props.C88_sizes' depends on axioms: [propext]
'Verif.Props.C88_independent' depends on axioms: [propext]
'Verif.Props.C88_cpp_assignment' depends on axioms: [propext]
'Verif.Props.C89_objects' depends on axioms: [propext, Classical.choice, Quot.sound]
'Verif.Props.C89_independent' depends on axioms: [propext, Classical.choice, Quot.sound]
'Verif.Props.C89_self_move' depends on axioms: [propext, Classical.choice, Quot.sound]
'Verif.Props.C90_gate' depends on axioms: [propext, Classical.choice, Quot.sound]
'Verif.Props.C90_param' depends on axioms: [propext, Classical.choice, Quot.sound]
'Verif.Props.C90_circuit' depends on axioms: [propext, Classical.choice, Quot.sound]
'Verif.Props.C90_gate_batched_partial' depends on axioms: [propext, Classical.choice, Quot.sound]
'Verif.Props.C90_param_batched_partial' depends on axioms: [propext, Classical.choice, Quot.sound]
'Verif.Props.C90_circuit_batched_partial' depends on axioms: [propext, Classical.choice, Quot.sound]
'Verif.Props.C90_refused_kinds' depends on axioms: [propext, Classical.choice, Quot.sound]
'Verif.Props.C90_refused_parameters' depends on axioms: [propext, Classical.choice, Quot.sound]
'Verif.Props.C90_refused_sizes' depends on axioms: [propext, Classical.choice, Quot.sound]
'Verif.Props.C90_refused_bits' depends on axioms: [propext, Classical.choice, Quot.sound]
'Verif.Props.C90_repeatable' depends on axioms: [propext, Classical.choice, Quot.sound]
'Verif.Props.C90_counterexample' depends on axioms: [propext, Classical.choice, Quot.sound]
'Verif.Props.C91_objects' depends on axioms: [propext, Classical.choice, Quot.sound]
'Verif.Props.C91_refused' depends on axioms: [propext, Classical.choice, Quot.sound]
'Verif.Props.C91_values' depends on axioms: [propext, Classical.choice, Quot.sound]
'Verif.Props.C91_flag_partial' depends on axioms: [propext, Classical.choice, Quot.sound]
'Verif.Props.C91_flag_counterexample' depends on axioms: [propext, Classical.choice, Quot.sound]
'Verif.Props.C92_single' depends on axioms: [propext, Classical.choice, Quot.sound]
'Verif.Props.C92_batch' depends on axioms: [propext, Classical.choice, Quot.sound]
'Verif.Props.C92_circuit' depends on axioms: [propext, Classical.choice, Quot.sound]
'Verif.Props.C92_determined' depends on axioms: [propext, Classical.choice, Quot.sound]
'Verif.Props.C92_lanes' depends on axioms: [propext, Classical.choice, Quot.sound]
'Verif.Props.C92_batch_same' depends on axioms: [propext, Classical.choice, Quot.sound]
'Verif.Props.C93_normalize_partial' depends on axioms: [propext, Classical.choice, Quot.sound]
'Verif.Props.C93_normalize_batched_partial' depends on axioms: [propext, Classical.choice, Quot.sound]
'Verif.Props.C93_multiply' depends on axioms: [propext, Classical.choice, Quot.sound]
'Verif.Props.C93_add' depends on axioms: [propext, Classical.choice, Quot.sound]
'Verif.Props.C93_after_circuit' depends on axioms: [propext, Classical.choice, Quot.sound]
'Verif.Props.C93_half_counterexample' depends on axioms: [propext, Classical.choice, Quot.sound]
'Verif.Props.C94_merge' depends on axioms: [propext, Classical.choice, Quot.sound]
'Verif.Props.C94_merge_runs' depends on axioms: [propext, Classical.choice, Quot.sound]
'Verif.Props.C94_optimize' depends on axioms: [propext, Classical.choice, Quot.sound]
'Verif.Props.C94_outcome' depends on axioms: [propext, Classical.choice, Quot.sound]
'Verif.Props.C94_python_partial' depends on axioms: [propext, Classical.choice, Quot.sound]
'Verif.Props.C94_python_counterexample' depends on axioms: [propext, Classical.choice, Quot.sound]
'Verif.Props.C94_python_merge_counterexample' depends on axioms: [propext, Classical.choice, Quot.sound]
'Verif.Props.C95_gate' depends on axioms: [propext, Classical.choice, Quot.sound]
'Verif.Props.C95_sequence' depends on axioms: [propext, Classical.choice, Quot.sound]
'Verif.Props.C95_elements' depends on axioms: [propext, Classical.choice, Quot.sound]
'Verif.Props.C95_hermitian' depends on axioms: [propext, Classical.choice, Quot.sound]
'Verif.Props.C95_trace' depends on axioms: [propext, Classical.choice, Quot.sound]
'Verif.Props.C95_throws' depends on axioms: [propext, Classical.choice, Quot.sound]
'Verif.Props.C95_exact' depends on axioms: [propext, Classical.choice, Quot.sound]
'Verif.Props.C96_trace' depends on axioms: [propext, Classical.choice, Quot.sound]
'Verif.Props.C96_zero_probability' depends on axioms: [propext, Classical.choice, Quot.sound]
'Verif.Props.C96_marginal_probability' depends on axioms: [propext, Classical.choice, Quot.sound]
'Verif.Props.C96_purity' depends on axioms: [propext, Classical.choice, Quot.sound]
'Verif.Props.C96_partial_trace' depends on axioms: [propext, Classical.choice, Quot.sound]
'Verif.Props.C96_gates_trace' depends on axioms: [propext, Classical.choice, Quot.sound]
'Verif.Props.C96_gates_probability' depends on axioms: [propext, Classical.choice, Quot.sound]
'Verif.Props.C96_gates_purity' depends on axioms: [propext, Classical.choice, Quot.sound]
'Verif.Props.C96_exact' depends on axioms: [propext, Classical.choice, Quot.sound]
'Verif.Props.C97_load' depends on axioms: [propext, Classical.choice, Quot.sound]
'Verif.Props.C97_multiply' depends on axioms: [propext, Classical.choice, Quot.sound]
'Verif.Props.C97_add' depends on axioms: [propext, Classical.choice, Quot.sound]
'Verif.Props.C97_normalize' depends on axioms: [propext, Classical.choice, Quot.sound]
'Verif.Props.C97_simulation' depends on axioms: [propext, Classical.choice, Quot.sound]
'Verif.Props.C97_agree' depends on axioms: [propext, Classical.choice, Quot.sound]
'Verif.Props.C97_exact' depends on axioms: [propext, Classical.choice, Quot.sound]
'Verif.Props.C98_transition' depends on axioms: [propext, Classical.choice, Quot.sound]
'Verif.Props.C98_mismatch' depends on axioms: [propext, Classical.choice, Quot.sound]
'Verif.Props.C98_transition_batched' depends on axioms: [propext, Classical.choice, Quot.sound]
'Verif.Props.C98_expectation_batched' depends on axioms: [propext, Classical.choice, Quot.sound]
'Verif.Props.C98_pauli_expectation' depends on axioms: [propext, Classical.choice, Quot.sound]
'Verif.Props.C98_pauli_transition' depends on axioms: [propext, Classical.choice, Quot.sound]
'Verif.Props.C98_circuit_transition' depends on axioms: [propext, Classical.choice, Quot.sound]
'Verif.Props.C98_exact' depends on axioms: [propext, Classical.choice, Quot.sound]
'Verif.Props.C98_pauli_sizes_unchecked' depends on axioms: [propext, Classical.choice, Quot.sound]
'Verif.Props.C99_transition_batched' depends on axioms: [propext, Classical.choice, Quot.sound]
'Verif.Props.C99_transition' depends on axioms: [propext, Classical.choice, Quot.sound]
'Verif.Props.C99_expectation_batched' depends on axioms: [propext, Classical.choice, Quot.sound]
'Verif.Props.C99_expectation' depends on axioms: [propext, Classical.choice, Quot.sound]
'Verif.Props.C99_mismatch' depends on axioms: [propext, Classical.choice, Quot.sound]
'Verif.Props.C99_values_partial' depends on axioms: [propext, Classical.choice, Quot.sound]
'Verif.Props.C99_counterexample_values' depends on axioms: [propext, Classical.choice, Quot.sound]
'Verif.Props.C99_pauli_expectation_batched' depends on axioms: [propext, Classical.choice, Quot.sound]
'Verif.Props.C99_exact' depends on axioms: [propext, Classical.choice, Quot.sound]
'Verif.Props.C100_store' depends on axioms: [propext, Classical.choice, Quot.sound]
'Verif.Props.C100_kernel' depends on axioms: [propext, Classical.choice, Quot.sound]
'Verif.Props.C100_get' depends on axioms: [propext, Classical.choice, Quot.sound]
'Verif.Props.C100_representable' depends on axioms: [propext, Classical.choice, Quot.sound]
'Verif.Props.C100_again' depends on axioms: [propext, Classical.choice, Quot.sound]
'Verif.Props.C100_internal' depends on axioms: [propext, Classical.choice, Quot.sound]
'Verif.Props.C100_inverse' depends on axioms: [propext, Classical.choice, Quot.sound]
'Verif.Props.C100_inverse_twice' depends on axioms: [propext, Classical.choice, Quot.sound]
'Verif.Props.C100_inverse_throws' depends on axioms: [propext, Classical.choice, Quot.sound]
'Verif.Props.C101_apply_partial' depends on axioms: [propext, Classical.choice, Quot.sound]
'Verif.Props.C101_get_matrix_partial' depends on axioms: [propext, Classical.choice, Quot.sound]
'Verif.Props.C101_internal_partial' depends on axioms: [propext, Classical.choice, Quot.sound]
'Verif.Props.C101_counterexample_uncompressed' depends on axioms: [propext, Classical.choice, Quot.sound]
'Verif.Props.C102_bound' depends on axioms: [propext, Classical.choice, Quot.sound]
'Verif.Props.C102_kept' depends on axioms: [propext, Classical.choice, Quot.sound]
'Verif.Props.C102_merged' depends on axioms: [propext, Classical.choice, Quot.sound]
