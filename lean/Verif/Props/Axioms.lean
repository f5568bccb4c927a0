import Verif.Props.AppliedStates
import Verif.Props.Arnoldi
import Verif.Props.Average
import Verif.Props.BatchAdd
import Verif.Props.BlockSize
import Verif.Props.Channel
import Verif.Props.Circuit
import Verif.Props.CircuitDepth
import Verif.Props.CircuitInverse
import Verif.Props.CircuitObjects
import Verif.Props.Density
import Verif.Props.DensityObjects
import Verif.Props.Entropy
import Verif.Props.EntryPoints
import Verif.Props.Expand
import Verif.Props.FloatDensity
import Verif.Props.FloatDensityRead
import Verif.Props.FloatDensityVec
import Verif.Props.FloatOpBatched
import Verif.Props.FloatParam
import Verif.Props.FloatSampling
import Verif.Props.FloatTransition
import Verif.Props.FloatVec
import Verif.Props.GatePtr
import Verif.Props.Gates
import Verif.Props.Gradient
import Verif.Props.GradientWide
import Verif.Props.GroundState
import Verif.Props.Haar
import Verif.Props.Json
import Verif.Props.JsonRead
import Verif.Props.JsonSays
import Verif.Props.JsonState
import Verif.Props.League
import Verif.Props.MatrixStore
import Verif.Props.Merge
import Verif.Props.MergeAny
import Verif.Props.Noise
import Verif.Props.NoiseLaw
import Verif.Props.ObservableRotation
import Verif.Props.OpSharing
import Verif.Props.Operator
import Verif.Props.OperatorBatched
import Verif.Props.Optimize
import Verif.Props.Parallel
import Verif.Props.Pauli
import Verif.Props.PauliText
import Verif.Props.Qasm
import Verif.Props.QasmLoose
import Verif.Props.QasmMeaning
import Verif.Props.Random
import Verif.Props.RandomGate
import Verif.Props.RandomInverse
import Verif.Props.Reductions
import Verif.Props.Registers
import Verif.Props.Rounding
import Verif.Props.Sharing
import Verif.Props.Space
import Verif.Props.SpaceMerge
import Verif.Props.SparseStore
import Verif.Props.State
import Verif.Props.Tagged
import Verif.Props.ToText

/-! The axioms used by every property theorem (written by tools/manifest.py). -/

#print axioms Verif.Props.C01_workItems_partition
#print axioms Verif.Props.C02_schedule_independent
#print axioms Verif.Props.C02_meaning
#print axioms Verif.Props.C03_one_qubit_gates
#print axioms Verif.Props.C04_swap
#print axioms Verif.Props.C04_swap_no_arithmetic
#print axioms Verif.Props.C05_ecr
#print axioms Verif.Props.C06_permutation
#print axioms Verif.Props.C06_rejects
#print axioms Verif.Props.C07_dense
#print axioms Verif.Props.C08_sparse_eq_dense
#print axioms Verif.Props.C09_simd_eq_scalar
#print axioms Verif.Props.C10_batched
#print axioms Verif.Props.C11_pauli_gate
#print axioms Verif.Props.C11_apply_to_state
#print axioms Verif.Props.C11_explicit
#print axioms Verif.Props.C12_exponential
#print axioms Verif.Props.C12_pauli_rotation
#print axioms Verif.Props.C12_eigen
#print axioms Verif.Props.C12_square
#print axioms Verif.Props.C13_norm
#print axioms Verif.Props.C14_inverse_partial
#print axioms Verif.Props.C14_has_inverse
#print axioms Verif.Props.C14_pauli_counterexample
#print axioms Verif.Props.C15_matrix
#print axioms Verif.Props.C15_parametric
#print axioms Verif.Props.C16_bounds_partial
#print axioms Verif.Props.C16_pauli_counterexample
#print axioms Verif.Props.C17_lists
#print axioms Verif.Props.C17_accepts_iff
#print axioms Verif.Props.C17_rejects
#print axioms Verif.Props.C18_product
#print axioms Verif.Props.C18_monoid
#print axioms Verif.Props.C19_roundtrip
#print axioms Verif.Props.C19_lists
#print axioms Verif.Props.C20_add_single
#print axioms Verif.Props.C20_lists
#print axioms Verif.Props.C21_operator_dagger
#print axioms Verif.Props.C21_dagger
#print axioms Verif.Props.C22_expectation
#print axioms Verif.Props.C22_expectation_batched
#print axioms Verif.Props.C23_transition
#print axioms Verif.Props.C23_sizes_unchecked
#print axioms Verif.Props.C24_batched_transition_partial
#print axioms Verif.Props.C24_mismatch
#print axioms Verif.Props.C24_counterexample
#print axioms Verif.Props.C25_matrix_partial
#print axioms Verif.Props.C25_counterexample
#print axioms Verif.Props.C26_apply
#print axioms Verif.Props.C26_full_matrix
#print axioms Verif.Props.C26_values_partial
#print axioms Verif.Props.C26_mismatch
#print axioms Verif.Props.C26_counterexample
#print axioms Verif.Props.C26_values_counterexample
#print axioms Verif.Props.C27_optimize
#print axioms Verif.Props.C27_optimize_total
#print axioms Verif.Props.C28_arithmetic
#print axioms Verif.Props.C29_hermitian_partial
#print axioms Verif.Props.C29_counterexample_product
#print axioms Verif.Props.C29_counterexample_pauli
#print axioms Verif.Props.C29_counterexample_complete
#print axioms Verif.Props.C29_counterexample_batched
#print axioms Verif.Props.C30_slots
#print axioms Verif.Props.C30_load
#print axioms Verif.Props.C30_add
#print axioms Verif.Props.C30_mul
#print axioms Verif.Props.C30_dagger
#print axioms Verif.Props.C31_scale_partial
#print axioms Verif.Props.C31_counterexample_wrong
#print axioms Verif.Props.C31_counterexample_ub
#print axioms Verif.Props.C32_add_partial
#print axioms Verif.Props.C32_counterexample_size
#print axioms Verif.Props.C32_counterexample_mul
#print axioms Verif.Props.C33_zero
#print axioms Verif.Props.C33_zero_batched
#print axioms Verif.Props.C33_marginal
#print axioms Verif.Props.C33_marginal_batched
#print axioms Verif.Props.C33_distribution
#print axioms Verif.Props.C34_draw
#print axioms Verif.Props.C34_sampling
#print axioms Verif.Props.C34_any_state
#print axioms Verif.Props.C34_batched
#print axioms Verif.Props.C34_zero_norm_never_returns
#print axioms Verif.Props.C35_measure
#print axioms Verif.Props.C35_measure_any
#print axioms Verif.Props.C35_repeatable
#print axioms Verif.Props.C35_rejected
#print axioms Verif.Props.C35_construct
#print axioms Verif.Props.C35_batched
#print axioms Verif.Props.C35_batched_rejected
#print axioms Verif.Props.C35_unnormalised
#print axioms Verif.Props.C36_select
#print axioms Verif.Props.C36_probabilities
#print axioms Verif.Props.C36_accepts
#print axioms Verif.Props.C36_batched_partial
#print axioms Verif.Props.C36_batched_counterexample
#print axioms Verif.Props.C36_inverse
#print axioms Verif.Props.C36_measurement_rejected
#print axioms Verif.Props.C36_param_accepts
#print axioms Verif.Props.C36_param_measurement_rejected
#print axioms Verif.Props.C37_channels
#print axioms Verif.Props.C37_rejects
#print axioms Verif.Props.C38_in_order
#print axioms Verif.Props.C38_operators
#print axioms Verif.Props.C38_append
#print axioms Verif.Props.C38_total
#print axioms Verif.Props.C38_copy
#print axioms Verif.Props.C39_inverse_partial
#print axioms Verif.Props.C39_measurement
#print axioms Verif.Props.C39_random_counterexample
#print axioms Verif.Props.C39_pauli_counterexample
#print axioms Verif.Props.C39_same_draws
#print axioms Verif.Props.C40_merges_partial
#print axioms Verif.Props.C40_total
#print axioms Verif.Props.C40_families_partial
#print axioms Verif.Props.C40_counterexample
#print axioms Verif.Props.C40_counterexample_no_operand
#print axioms Verif.Props.C41_merge_partial
#print axioms Verif.Props.C41_exact
#print axioms Verif.Props.C41_permutation
#print axioms Verif.Props.C41_counterexample
#print axioms Verif.Props.C41_deterministic
#print axioms Verif.Props.C41_probabilistic
#print axioms Verif.Props.C41_measurement
#print axioms Verif.Props.C41_measurement_effect
#print axioms Verif.Props.C42_depth_partial
#print axioms Verif.Props.C42_at_most
#print axioms Verif.Props.C42_throws
#print axioms Verif.Props.C43_missing
#print axioms Verif.Props.C43_extra
#print axioms Verif.Props.C43_keys
#print axioms Verif.Props.C43_batched
#print axioms Verif.Props.C43_missing_plain
#print axioms Verif.Props.C43_extra_batched
#print axioms Verif.Props.C44_applied_iff
#print axioms Verif.Props.C44_batched_partial
#print axioms Verif.Props.C44_rejected
#print axioms Verif.Props.C44_counterexample
#print axioms Verif.Props.C44_counterexample_lost
#print axioms Verif.Props.C45_paths
#print axioms Verif.Props.C45_shots
#print axioms Verif.Props.C45_runs_partial
#print axioms Verif.Props.C45_measurement
#print axioms Verif.Props.C45_counterexample
#print axioms Verif.Props.C46_gradient_partial
#print axioms Verif.Props.C46_refuses_non_hermitian
#print axioms Verif.Props.C46_controlled_counterexample
#print axioms Verif.Props.C46_larger_register_partial
#print axioms Verif.Props.C46_outside
#print axioms Verif.Props.C47_gate_partial
#print axioms Verif.Props.C47_param_gate_partial
#print axioms Verif.Props.C47_circuit_partial
#print axioms Verif.Props.C47_conditions
#print axioms Verif.Props.C47_refused
#print axioms Verif.Props.C47_counterexample
#print axioms Verif.Props.C48_round_trip_partial
#print axioms Verif.Props.C48_accepts
#print axioms Verif.Props.C48_condition_counterexample
#print axioms Verif.Props.C48_bit_counterexample
#print axioms Verif.Props.C49_registers_partial
#print axioms Verif.Props.C49_stable
#print axioms Verif.Props.C49_counterexample
#print axioms Verif.Props.C50_gate
#print axioms Verif.Props.C50_pure
#print axioms Verif.Props.C50_throws
#print axioms Verif.Props.C51_get_trace
#print axioms Verif.Props.C51_unitary_gates
#print axioms Verif.Props.C51_partial_trace_partial
#print axioms Verif.Props.C51_partial_trace_throws
#print axioms Verif.Props.C51_league_counterexample
#print axioms Verif.Props.C52_flag_partial
#print axioms Verif.Props.C52_counterexample
#print axioms Verif.Props.C53_permutation
#print axioms Verif.Props.C53_reachable_partial
#print axioms Verif.Props.C53_counterexample
#print axioms Verif.Props.C54_expanded
#print axioms Verif.Props.C55_states_partial
#print axioms Verif.Props.C55_counterexample_race
#print axioms Verif.Props.C55_counterexample_chunk
#print axioms Verif.Props.C55_counterexample_qubits
#print axioms Verif.Props.C55_values_partial
#print axioms Verif.Props.C56_add_batched
#print axioms Verif.Props.C56_add_batched_throws
#print axioms Verif.Props.C56_basis_batched
#print axioms Verif.Props.C56_norm_batched
#print axioms Verif.Props.C56_norm_inner
#print axioms Verif.Props.C56_normalize
#print axioms Verif.Props.C56_linear_partial
#print axioms Verif.Props.C56_counterexample_size
#print axioms Verif.Props.C56_normalize_batched
#print axioms Verif.Props.C57_batched_partial
#print axioms Verif.Props.C57_entropy_partial
#print axioms Verif.Props.C57_counterexample
#print axioms Verif.Props.C58_formulas
#print axioms Verif.Props.C58_pure
#print axioms Verif.Props.C58_sampling
#print axioms Verif.Props.C58_throws
#print axioms Verif.Props.C59_setters
#print axioms Verif.Props.C59_arithmetic
#print axioms Verif.Props.C59_total
#print axioms Verif.Props.C59_coherence
#print axioms Verif.Props.C60_loads_defined
#print axioms Verif.Props.C61_pauli
#print axioms Verif.Props.C61_operator_partial
#print axioms Verif.Props.C61_counterexample
#print axioms Verif.Props.C61_operator_batched
#print axioms Verif.Props.C61_state
#print axioms Verif.Props.C61_batch
#print axioms Verif.Props.C61_density
#print axioms Verif.Props.C62_gate_partial
#print axioms Verif.Props.C62_param_gate_partial
#print axioms Verif.Props.C62_circuit_partial
#print axioms Verif.Props.C62_counterexample_target
#print axioms Verif.Props.C62_counterexample_values
#print axioms Verif.Props.C62_counterexample_permutation
#print axioms Verif.Props.C62_operator_partial
#print axioms Verif.Props.C62_counterexample_coef
#print axioms Verif.Props.C62_state_partial
#print axioms Verif.Props.C62_batch_partial
#print axioms Verif.Props.C62_density_partial
#print axioms Verif.Props.C62_counterexample_size
#print axioms Verif.Props.C62_counterexample_row
#print axioms Verif.Props.C63_meaning_partial
#print axioms Verif.Props.C63_comment_joins_words
#print axioms Verif.Props.C64_result
#print axioms Verif.Props.C64_default_shift
#print axioms Verif.Props.C64_fails
#print axioms Verif.Props.C64_energy_partial
#print axioms Verif.Props.C64_converges_partial
#print axioms Verif.Props.C64_counterexample
#print axioms Verif.Props.C65_result_partial
#print axioms Verif.Props.C65_exact
#print axioms Verif.Props.C65_power
#print axioms Verif.Props.C65_counterexample_iterations
#print axioms Verif.Props.C65_counterexample_eigenstate
#print axioms Verif.Props.C65_counterexample_zero
#print axioms Verif.Props.C65_counterexample_norm
#print axioms Verif.Props.C66_rejects
#print axioms Verif.Props.C66_tiny
#print axioms Verif.Props.C66_appends
#print axioms Verif.Props.C66_exact_partial
#print axioms Verif.Props.C66_trotter_partial
#print axioms Verif.Props.C66_converges
#print axioms Verif.Props.C66_counterexample
#print axioms Verif.Props.C66_counterexample_flag
#print axioms Verif.Props.C67_gate
#print axioms Verif.Props.C67_circuit
#print axioms Verif.Props.C67_norm
#print axioms Verif.Props.C68_gate
#print axioms Verif.Props.C68_circuit
#print axioms Verif.Props.C69_gate
#print axioms Verif.Props.C69_circuit
#print axioms Verif.Props.C70_sharing_exact
#print axioms Verif.Props.C70_sharing_partial
#print axioms Verif.Props.C70_new_state_independent
#print axioms Verif.Props.C70_new_batch_independent
#print axioms Verif.Props.C70_others_unchanged
#print axioms Verif.Props.C70_view_partial
#print axioms Verif.Props.C70_copied_handle_partial
#print axioms Verif.Props.C70_copy_equal
#print axioms Verif.Props.C70_own_view_races
#print axioms Verif.Props.C70_sharing_counterexample
#print axioms Verif.Props.C71_text_exact
#print axioms Verif.Props.C71_text_partial
#print axioms Verif.Props.C71_text_counterexample
#print axioms Verif.Props.C72_squared_norm
#print axioms Verif.Props.C72_zero_probability
#print axioms Verif.Props.C72_marginal_probability
#print axioms Verif.Props.C72_inner_product
#print axioms Verif.Props.C72_expectation
#print axioms Verif.Props.C72_circuit_probability
#print axioms Verif.Props.C72_circuit_expectation
#print axioms Verif.Props.C72_exact
#print axioms Verif.Props.C72_not_reproducible
#print axioms Verif.Props.C73_nearly_uniform
#print axioms Verif.Props.C73_relative_error
#print axioms Verif.Props.C73_biased
#print axioms Verif.Props.C74_runs
#print axioms Verif.Props.C74_density
#print axioms Verif.Props.C74_register
#print axioms Verif.Props.C74_expectation
#print axioms Verif.Props.C74_born
#print axioms Verif.Props.C74_channel
#print axioms Verif.Props.C75_any_state
#print axioms Verif.Props.C75_sampling
#print axioms Verif.Props.C75_returns
#print axioms Verif.Props.C75_batched
#print axioms Verif.Props.C75_density
#print axioms Verif.Props.C76_sampling
#print axioms Verif.Props.C76_tables
#print axioms Verif.Props.C76_valid
#print axioms Verif.Props.C76_zero
#print axioms Verif.Props.C76_batched
#print axioms Verif.Props.C76_density
#print axioms Verif.Props.C76_circuit
#print axioms Verif.Props.C76_exact
#print axioms Verif.Props.C76_zero_returned
#print axioms Verif.Props.C77_returns
#print axioms Verif.Props.C77_shots
#print axioms Verif.Props.C77_mean
#print axioms Verif.Props.C77_variance
#print axioms Verif.Props.C77_deviation
#print axioms Verif.Props.C77_binomial
#print axioms Verif.Props.C77_density
#print axioms Verif.Props.C78_returns
#print axioms Verif.Props.C78_haar
#print axioms Verif.Props.C78_unique
#print axioms Verif.Props.C78_mean
#print axioms Verif.Props.C78_circuit
#print axioms Verif.Props.C78_batched
#print axioms Verif.Props.C78_batched_same
#print axioms Verif.Props.C78_batched_returns
#print axioms Verif.Props.C78_density
#print axioms Verif.Props.C79_regular
#print axioms Verif.Props.C79_density
#print axioms Verif.Props.C79_pauli
#print axioms Verif.Props.C79_observable
#print axioms Verif.Props.C79_limit
#print axioms Verif.Props.C80_state
#print axioms Verif.Props.C80_state_determines
#print axioms Verif.Props.C80_batched
#print axioms Verif.Props.C80_density
#print axioms Verif.Props.C80_labels
#print axioms Verif.Props.C80_operator
#print axioms Verif.Props.C80_operator_determines
#print axioms Verif.Props.C80_operator_default
#print axioms Verif.Props.C80_gate_partial
#print axioms Verif.Props.C80_gate_determines_partial
#print axioms Verif.Props.C80_counterexample_u2
#print axioms Verif.Props.C80_pauli
#print axioms Verif.Props.C80_counterexample_control_values
#print axioms Verif.Props.C80_counterexample_coefficient
#print axioms Verif.Props.C80_measurement
#print axioms Verif.Props.C80_probabilistic
#print axioms Verif.Props.C80_parametric
#print axioms Verif.Props.C80_counterexample_parametric
#print axioms Verif.Props.C81_types
#print axioms Verif.Props.C81_cast_partial
#print axioms Verif.Props.C81_created
#print axioms Verif.Props.C81_null
#print axioms Verif.Props.C81_inverse_counterexample
#print axioms Verif.Props.C81_space_counterexample
#print axioms Verif.Props.C81_circuit_types
#print axioms Verif.Props.C81_running
#print axioms Verif.Props.C81_inverse
#print axioms Verif.Props.C81_made
#print axioms Verif.Props.C81_noise_partial
#print axioms Verif.Props.C81_gradient_partial
#print axioms Verif.Props.C81_export_counterexample
#print axioms Verif.Props.C81_noise_counterexample
#print axioms Verif.Props.C81_made_types
#print axioms Verif.Props.C81_flatten_made
#print axioms Verif.Props.C81_flatten_counterexample
#print axioms Verif.Props.C81_optimize_phase_counterexample
#print axioms Verif.Props.C81_optimize_choice_counterexample
#print axioms Verif.Props.C81_gradient_counterexample
#print axioms Verif.Props.C82_agree
#print axioms Verif.Props.C82_partial
#print axioms Verif.Props.C82_wiped
#print axioms Verif.Props.C82_negative
#print axioms Verif.Props.C82_counterexample
#print axioms Verif.Props.C83_own_space
#print axioms Verif.Props.C83_own_space_batched
#print axioms Verif.Props.C83_any_space
#print axioms Verif.Props.C83_refused
#print axioms Verif.Props.C83_finished
#print axioms Verif.Props.C83_finished_batched
#print axioms Verif.Props.C83_stops
#print axioms Verif.Props.C83_inverse
#print axioms Verif.Props.C84_entropy
#print axioms Verif.Props.C84_batched_partial
#print axioms Verif.Props.C84_density
#print axioms Verif.Props.C84_batched_nan
#print axioms Verif.Props.C84_half_counterexample
#print axioms Verif.Props.C84_exact
#print axioms Verif.Props.C85_sharing_partial
#print axioms Verif.Props.C85_independent
#print axioms Verif.Props.C85_view
#print axioms Verif.Props.C85_load_counterexample
#print axioms Verif.Props.C85_hermitian_counterexample
#print axioms Verif.Props.C86_accepted_partial
#print axioms Verif.Props.C86_not_strict
#print axioms Verif.Props.C87_gate_partial
#print axioms Verif.Props.C87_param_gate_partial
#print axioms Verif.Props.C87_circuit_partial
#print axioms Verif.Props.C87_unique
#print axioms Verif.Props.C87_counterexample_target
#print axioms Verif.Props.C87_counterexample_object
#print axioms Verif.Props.C87_conversions
#print axioms Verif.Props.C88_registers
#print axioms Verif.Props.C88_sizes
#print axioms Verif.Props.C88_independent
#print axioms Verif.Props.C88_cpp_assignment
#print axioms Verif.Props.C89_objects
#print axioms Verif.Props.C89_independent
#print axioms Verif.Props.C89_self_move
#print axioms Verif.Props.C90_gate
#print axioms Verif.Props.C90_param
#print axioms Verif.Props.C90_circuit
#print axioms Verif.Props.C90_gate_batched_partial
#print axioms Verif.Props.C90_param_batched_partial
#print axioms Verif.Props.C90_circuit_batched_partial
#print axioms Verif.Props.C90_refused_kinds
#print axioms Verif.Props.C90_refused_parameters
#print axioms Verif.Props.C90_refused_sizes
#print axioms Verif.Props.C90_refused_bits
#print axioms Verif.Props.C90_repeatable
#print axioms Verif.Props.C90_counterexample
#print axioms Verif.Props.C91_objects
#print axioms Verif.Props.C91_refused
#print axioms Verif.Props.C91_values
#print axioms Verif.Props.C91_flag_partial
#print axioms Verif.Props.C91_flag_counterexample
#print axioms Verif.Props.C92_single
#print axioms Verif.Props.C92_batch
#print axioms Verif.Props.C92_circuit
#print axioms Verif.Props.C92_determined
#print axioms Verif.Props.C92_lanes
#print axioms Verif.Props.C92_batch_same
#print axioms Verif.Props.C93_normalize_partial
#print axioms Verif.Props.C93_normalize_batched_partial
#print axioms Verif.Props.C93_multiply
#print axioms Verif.Props.C93_add
#print axioms Verif.Props.C93_after_circuit
#print axioms Verif.Props.C93_half_counterexample
#print axioms Verif.Props.C94_merge
#print axioms Verif.Props.C94_merge_runs
#print axioms Verif.Props.C94_optimize
#print axioms Verif.Props.C94_outcome
#print axioms Verif.Props.C94_python_partial
#print axioms Verif.Props.C94_python_counterexample
#print axioms Verif.Props.C94_python_merge_counterexample
#print axioms Verif.Props.C95_gate
#print axioms Verif.Props.C95_sequence
#print axioms Verif.Props.C95_elements
#print axioms Verif.Props.C95_hermitian
#print axioms Verif.Props.C95_trace
#print axioms Verif.Props.C95_throws
#print axioms Verif.Props.C95_exact
#print axioms Verif.Props.C96_trace
#print axioms Verif.Props.C96_zero_probability
#print axioms Verif.Props.C96_marginal_probability
#print axioms Verif.Props.C96_purity
#print axioms Verif.Props.C96_partial_trace
#print axioms Verif.Props.C96_gates_trace
#print axioms Verif.Props.C96_gates_probability
#print axioms Verif.Props.C96_gates_purity
#print axioms Verif.Props.C96_exact
#print axioms Verif.Props.C97_load
#print axioms Verif.Props.C97_multiply
#print axioms Verif.Props.C97_add
#print axioms Verif.Props.C97_normalize
#print axioms Verif.Props.C97_simulation
#print axioms Verif.Props.C97_agree
#print axioms Verif.Props.C97_exact
#print axioms Verif.Props.C98_transition
#print axioms Verif.Props.C98_mismatch
#print axioms Verif.Props.C98_transition_batched
#print axioms Verif.Props.C98_expectation_batched
#print axioms Verif.Props.C98_pauli_expectation
#print axioms Verif.Props.C98_pauli_transition
#print axioms Verif.Props.C98_circuit_transition
#print axioms Verif.Props.C98_exact
#print axioms Verif.Props.C98_pauli_sizes_unchecked
#print axioms Verif.Props.C99_transition_batched
#print axioms Verif.Props.C99_transition
#print axioms Verif.Props.C99_expectation_batched
#print axioms Verif.Props.C99_expectation
#print axioms Verif.Props.C99_mismatch
#print axioms Verif.Props.C99_values_partial
#print axioms Verif.Props.C99_counterexample_values
#print axioms Verif.Props.C99_pauli_expectation_batched
#print axioms Verif.Props.C99_exact
#print axioms Verif.Props.C100_store
#print axioms Verif.Props.C100_kernel
#print axioms Verif.Props.C100_get
#print axioms Verif.Props.C100_representable
#print axioms Verif.Props.C100_again
#print axioms Verif.Props.C100_internal
#print axioms Verif.Props.C100_inverse
#print axioms Verif.Props.C100_inverse_twice
#print axioms Verif.Props.C100_inverse_throws
#print axioms Verif.Props.C101_apply_partial
#print axioms Verif.Props.C101_get_matrix_partial
#print axioms Verif.Props.C101_internal_partial
#print axioms Verif.Props.C101_counterexample_uncompressed
#print axioms Verif.Props.C102_bound
#print axioms Verif.Props.C102_kept
#print axioms Verif.Props.C102_merged
