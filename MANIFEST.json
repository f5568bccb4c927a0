{
 "claims": [
  {
   "property": "C01",
   "status": "proved",
   "theorems": [
    "Verif.Props.C01_workItems_partition"
   ],
   "note": "Every index of the state is visited by exactly one work item of the kernels' index enumeration."
  },
  {
   "property": "C02",
   "status": "proved",
   "theorems": [
    "Verif.Props.C02_schedule_independent",
    "Verif.Props.C02_meaning"
   ],
   "note": "Device regions end in the same memory under every interleaving, without race or out-of-range access."
  },
  {
   "property": "C03",
   "status": "proved",
   "theorems": [
    "Verif.Props.C03_one_qubit_gates"
   ],
   "note": ""
  },
  {
   "property": "C04",
   "status": "proved",
   "theorems": [
    "Verif.Props.C04_swap",
    "Verif.Props.C04_swap_no_arithmetic"
   ],
   "note": "C04_swap_no_arithmetic: holds for every number type, only moves amplitudes."
  },
  {
   "property": "C05",
   "status": "proved",
   "theorems": [
    "Verif.Props.C05_ecr"
   ],
   "note": ""
  },
  {
   "property": "C06",
   "status": "proved",
   "theorems": [
    "Verif.Props.C06_permutation",
    "Verif.Props.C06_rejects"
   ],
   "note": "C06_rejects: lists that are not permutations are rejected with an exception."
  },
  {
   "property": "C07",
   "status": "proved",
   "theorems": [
    "Verif.Props.C07_dense"
   ],
   "note": ""
  },
  {
   "property": "C08",
   "status": "proved",
   "theorems": [
    "Verif.Props.C08_sparse_eq_dense"
   ],
   "note": "For matrices of matching size without repeated entries (Eigen compressed storage); the missing size check is recorded in DESIGN.md."
  },
  {
   "property": "C09",
   "status": "proved",
   "theorems": [
    "Verif.Props.C09_simd_eq_scalar"
   ],
   "note": ""
  },
  {
   "property": "C10",
   "status": "proved",
   "theorems": [
    "Verif.Props.C10_batched"
   ],
   "note": ""
  },
  {
   "property": "C11",
   "status": "proved",
   "theorems": [
    "Verif.Props.C11_pauli_gate",
    "Verif.Props.C11_apply_to_state",
    "Verif.Props.C11_explicit"
   ],
   "note": ""
  },
  {
   "property": "C12",
   "status": "proved",
   "theorems": [
    "Verif.Props.C12_exponential",
    "Verif.Props.C12_pauli_rotation",
    "Verif.Props.C12_eigen",
    "Verif.Props.C12_square"
   ],
   "note": ""
  },
  {
   "property": "C13",
   "status": "proved",
   "theorems": [
    "Verif.Props.C13_norm"
   ],
   "note": ""
  },
  {
   "property": "C14",
   "status": "partial",
   "theorems": [
    "Verif.Props.C14_inverse_partial",
    "Verif.Props.C14_has_inverse",
    "Verif.Props.C14_pauli_counterexample"
   ],
   "note": "Partial: PauliGate::get_inverse returns the gate itself, wrong when coef^2 is not 1 (C14_pauli_counterexample)."
  },
  {
   "property": "C15",
   "status": "proved",
   "theorems": [
    "Verif.Props.C15_matrix",
    "Verif.Props.C15_parametric"
   ],
   "note": ""
  },
  {
   "property": "C16",
   "status": "partial",
   "theorems": [
    "Verif.Props.C16_bounds_partial",
    "Verif.Props.C16_pauli_counterexample"
   ],
   "note": "Partial: Pauli and PauliRotation gates have no bounds check (C16_pauli_counterexample)."
  },
  {
   "property": "C17",
   "status": "proved",
   "theorems": [
    "Verif.Props.C17_lists",
    "Verif.Props.C17_accepts_iff",
    "Verif.Props.C17_rejects"
   ],
   "note": ""
  },
  {
   "property": "C18",
   "status": "proved",
   "theorems": [
    "Verif.Props.C18_product",
    "Verif.Props.C18_monoid"
   ],
   "note": ""
  },
  {
   "property": "C19",
   "status": "proved",
   "theorems": [
    "Verif.Props.C19_roundtrip",
    "Verif.Props.C19_lists"
   ],
   "note": ""
  },
  {
   "property": "C20",
   "status": "proved",
   "theorems": [
    "Verif.Props.C20_add_single",
    "Verif.Props.C20_lists"
   ],
   "note": ""
  },
  {
   "property": "C21",
   "status": "proved",
   "theorems": [
    "Verif.Props.C21_operator_dagger",
    "Verif.Props.C21_dagger"
   ],
   "note": "Pauli operators and operators."
  },
  {
   "property": "C22",
   "status": "proved",
   "theorems": [
    "Verif.Props.C22_expectation",
    "Verif.Props.C22_expectation_batched"
   ],
   "note": ""
  },
  {
   "property": "C23",
   "status": "proved",
   "theorems": [
    "Verif.Props.C23_transition",
    "Verif.Props.C23_sizes_unchecked"
   ],
   "note": "For two states with the same number of qubits; the code does not compare the sizes, C23_sizes_unchecked shows the read out of range for a smaller ket."
  },
  {
   "property": "C24",
   "status": "partial",
   "theorems": [
    "Verif.Props.C24_batched_transition_partial",
    "Verif.Props.C24_mismatch",
    "Verif.Props.C24_counterexample"
   ],
   "note": "Partial: the batched transition amplitude is wrong (C24_counterexample); proved for strings without X/Y and real amplitudes."
  },
  {
   "property": "C25",
   "status": "partial",
   "theorems": [
    "Verif.Props.C25_matrix_partial",
    "Verif.Props.C25_counterexample"
   ],
   "note": "Partial: get_full_matrix drops the coefficient (C25_counterexample); get_matrix is right."
  },
  {
   "property": "C26",
   "status": "partial",
   "theorems": [
    "Verif.Props.C26_apply",
    "Verif.Props.C26_full_matrix",
    "Verif.Props.C26_values_partial",
    "Verif.Props.C26_mismatch",
    "Verif.Props.C26_counterexample",
    "Verif.Props.C26_values_counterexample"
   ],
   "note": "Partial: application and full matrix for all sizes; values for n >= 1 (C26_counterexample at n = 0); get_expectation_values for n <= 31 (C26_values_counterexample at n = 32)."
  },
  {
   "property": "C27",
   "status": "proved",
   "theorems": [
    "Verif.Props.C27_optimize",
    "Verif.Props.C27_optimize_total"
   ],
   "note": ""
  },
  {
   "property": "C28",
   "status": "proved",
   "theorems": [
    "Verif.Props.C28_arithmetic"
   ],
   "note": ""
  },
  {
   "property": "C29",
   "status": "partial",
   "theorems": [
    "Verif.Props.C29_hermitian_partial",
    "Verif.Props.C29_counterexample_product",
    "Verif.Props.C29_counterexample_pauli",
    "Verif.Props.C29_counterexample_complete",
    "Verif.Props.C29_counterexample_batched"
   ],
   "note": "Partial: sound and complete without products; Operator*Operator inverts the test and Operator*Pauli only looks at the factor's coefficient (three counterexamples)."
  },
  {
   "property": "C30",
   "status": "proved",
   "theorems": [
    "Verif.Props.C30_slots",
    "Verif.Props.C30_load",
    "Verif.Props.C30_add",
    "Verif.Props.C30_mul",
    "Verif.Props.C30_dagger"
   ],
   "note": "Layout invariant (row pointers and flattened terms), sum and product under every schedule of the nested loops, load."
  },
  {
   "property": "C31",
   "status": "partial",
   "theorems": [
    "Verif.Props.C31_scale_partial",
    "Verif.Props.C31_counterexample_wrong",
    "Verif.Props.C31_counterexample_ub"
   ],
   "note": "Partial: the code indexes the coefficients by flattened term index; counterexamples for slots with zero or several terms."
  },
  {
   "property": "C32",
   "status": "partial",
   "theorems": [
    "Verif.Props.C32_add_partial",
    "Verif.Props.C32_counterexample_size",
    "Verif.Props.C32_counterexample_mul"
   ],
   "note": "Partial: the size check asks for one element too many; the product always reads out of range (proved for every input)."
  },
  {
   "property": "C33",
   "status": "proved",
   "theorems": [
    "Verif.Props.C33_zero",
    "Verif.Props.C33_zero_batched",
    "Verif.Props.C33_marginal",
    "Verif.Props.C33_marginal_batched",
    "Verif.Props.C33_distribution"
   ],
   "note": "Exact arithmetic; n <= 63 because the dimension is 1ULL << n."
  },
  {
   "property": "C34",
   "status": "proved",
   "theorems": [
    "Verif.Props.C34_draw",
    "Verif.Props.C34_sampling",
    "Verif.Props.C34_any_state",
    "Verif.Props.C34_batched",
    "Verif.Props.C34_zero_norm_never_returns"
   ],
   "note": "Random numbers are inputs. Normalised states: the result is the unique list given by inverse CDF on the first draws; any state: what is returned is valid; zero-norm states never return (C34_zero_norm_never_returns)."
  },
  {
   "property": "C35",
   "status": "proved",
   "theorems": [
    "Verif.Props.C35_measure",
    "Verif.Props.C35_measure_any",
    "Verif.Props.C35_repeatable",
    "Verif.Props.C35_rejected",
    "Verif.Props.C35_construct",
    "Verif.Props.C35_batched",
    "Verif.Props.C35_batched_rejected",
    "Verif.Props.C35_unnormalised"
   ],
   "note": "Normalised states, single and batched; C35_measure_any covers other states as long as the outcome has nonzero probability, C35_unnormalised shows the undefined behaviour outside. Exact arithmetic; the draw of std::bernoulli_distribution is modelled as one uniform number compared with p."
  },
  {
   "property": "C36",
   "status": "partial",
   "theorems": [
    "Verif.Props.C36_select",
    "Verif.Props.C36_probabilities",
    "Verif.Props.C36_accepts",
    "Verif.Props.C36_batched_partial",
    "Verif.Props.C36_batched_counterexample",
    "Verif.Props.C36_inverse",
    "Verif.Props.C36_measurement_rejected",
    "Verif.Props.C36_param_accepts",
    "Verif.Props.C36_param_measurement_rejected"
   ],
   "note": "Any nesting depth, any draw; batched; inverse. Distribution entries are real numbers or NaN (none). Partial because a batch loses chosen gates that are sparse matrices or dense matrices on three or more qubits (C36_batched_counterexample)."
  },
  {
   "property": "C37",
   "status": "proved",
   "theorems": [
    "Verif.Props.C37_channels",
    "Verif.Props.C37_rejects"
   ],
   "note": "All four factories, exactly the documented probabilities; rates outside [0,1] rejected."
  },
  {
   "property": "C38",
   "status": "proved",
   "theorems": [
    "Verif.Props.C38_in_order",
    "Verif.Props.C38_operators",
    "Verif.Props.C38_append",
    "Verif.Props.C38_total",
    "Verif.Props.C38_copy"
   ],
   "note": "Circuits are built from lines (gate, random choice, measurement, parametric rotation, parametric random choice, each possibly conditional). In-order execution, appending, and absence of faults for unitary gates on normalised states; floating-point rounding not modelled."
  },
  {
   "property": "C39",
   "status": "partial",
   "theorems": [
    "Verif.Props.C39_inverse_partial",
    "Verif.Props.C39_measurement",
    "Verif.Props.C39_random_counterexample",
    "Verif.Props.C39_pauli_counterexample",
    "Verif.Props.C39_same_draws"
   ],
   "note": "Gates and parametric rotations, possibly conditional. Random choices: the inverse restores the state if it meets the same random numbers in reverse order (C39_same_draws); with fresh draws it need not (counterexample). Counterexample: Pauli gates with coefficient not squaring to 1."
  },
  {
   "property": "C40",
   "status": "partial",
   "theorems": [
    "Verif.Props.C40_merges_partial",
    "Verif.Props.C40_total",
    "Verif.Props.C40_families_partial",
    "Verif.Props.C40_counterexample",
    "Verif.Props.C40_counterexample_no_operand"
   ],
   "note": "False as stated: for every block size X(0),X(0) becomes X(0) (C40_counterexample), and gates without operands are dropped (C40_counterexample_no_operand). Proved for arbitrary circuits (conditions, measurements, random choices, parametric gates) and every block size: whenever each merge that took place keeps the qubits of both gates, the outcome is unchanged up to one phase <= 1e-12 (C40_merges_partial); this always holds for circuits whose unconditional gates are not from the cancelling families (C40_families_partial). C40_total: no exception without unconditional permutation gates. Exact complex arithmetic. Circuits of factory gates: the model reads the class of a gate where the code reads its type, which get_inverse loses (C81)."
  },
  {
   "property": "C41",
   "status": "partial",
   "theorems": [
    "Verif.Props.C41_merge_partial",
    "Verif.Props.C41_exact",
    "Verif.Props.C41_permutation",
    "Verif.Props.C41_counterexample",
    "Verif.Props.C41_deterministic",
    "Verif.Props.C41_probabilistic",
    "Verif.Props.C41_measurement",
    "Verif.Props.C41_measurement_effect"
   ],
   "note": "All pairs of gates of every class. Two gates with a matrix other than permutation gates: merge_gate succeeds and is the composition exactly, except for z-rotations whose RZ angles add up to less than 2e-12, where the code drops a phase (counterexample theorem). Permutation and probabilistic gates are refused by an exception. A measurement is merged with the identity and with uncontrolled global phases (same outcome, register and state up to the returned phase); with every other gate the call throws. Circuits of factory gates: the model reads the class of a gate where the code reads its type, which get_inverse loses (C81)."
  },
  {
   "property": "C42",
   "status": "partial",
   "theorems": [
    "Verif.Props.C42_depth_partial",
    "Verif.Props.C42_at_most",
    "Verif.Props.C42_throws"
   ],
   "note": "All circuits without random choices; with one, calculate_depth throws (C42_throws)."
  },
  {
   "property": "C43",
   "status": "proved",
   "theorems": [
    "Verif.Props.C43_missing",
    "Verif.Props.C43_extra",
    "Verif.Props.C43_keys",
    "Verif.Props.C43_batched",
    "Verif.Props.C43_missing_plain",
    "Verif.Props.C43_extra_batched"
   ],
   "note": "Missing keys are rejected before anything changes, single and batched; extra keys make no difference; wrong length rejected for batches."
  },
  {
   "property": "C44",
   "status": "partial",
   "theorems": [
    "Verif.Props.C44_applied_iff",
    "Verif.Props.C44_batched_partial",
    "Verif.Props.C44_rejected",
    "Verif.Props.C44_counterexample",
    "Verif.Props.C44_counterexample_lost"
   ],
   "note": "Single-state and slot-wise batched execution of conditional lines. Partial because the batched update does not check conditional gates against qubits measured without reset (C44_counterexample) and loses conditional sparse matrices and dense matrices on three or more qubits (C44_counterexample_lost)."
  },
  {
   "property": "C45",
   "status": "partial",
   "theorems": [
    "Verif.Props.C45_paths",
    "Verif.Props.C45_shots",
    "Verif.Props.C45_runs_partial",
    "Verif.Props.C45_measurement",
    "Verif.Props.C45_counterexample"
   ],
   "note": "C45_paths: full description of the result for every circuit without measurements (conditions ignored, as in the code): one path per shot built from the draws, each path reported once with its number of shots and state. C45_shots: counts add up. C45_runs_partial: for circuits without classical conditions every returned state is the end of a run of update_quantum_state with suitable random numbers. C45_counterexample: with a classical condition the property fails, simulate_noise applies the gate although its condition is false. C45_measurement: measurement gates are refused by an exception. The values of std::discrete_distribution are an arbitrary stream of indices with positive weight. Circuits of factory gates: the model reads the class of a gate where the code reads its type, which get_inverse loses (C81)."
  },
  {
   "property": "C46",
   "status": "partial",
   "theorems": [
    "Verif.Props.C46_gradient_partial",
    "Verif.Props.C46_refuses_non_hermitian",
    "Verif.Props.C46_controlled_counterexample",
    "Verif.Props.C46_larger_register_partial",
    "Verif.Props.C46_outside"
   ],
   "note": "Circuits of unconditional unitary gates and uncontrolled parametric rotations with real non-negligible factors, and observables whose X and Y letters lie on the circuit's qubits (Z anywhere): the returned map holds exactly the derivatives (sums over repeated keys). Controlled rotations give wrong results (C46_controlled_counterexample); an X or Y on a qubit the circuit does not use makes the code read outside the state (C46_outside). Circuits with random choices are outside the statement (their inverse draws again). Circuits of factory gates: the model reads the class of a gate where the code reads its type, which get_inverse loses (C81)."
  },
  {
   "property": "C47",
   "status": "partial",
   "theorems": [
    "Verif.Props.C47_gate_partial",
    "Verif.Props.C47_param_gate_partial",
    "Verif.Props.C47_circuit_partial",
    "Verif.Props.C47_conditions",
    "Verif.Props.C47_refused",
    "Verif.Props.C47_counterexample"
   ],
   "note": "Every gate, parametric gate and circuit made by the factory functions is read back as the identical object, except that P0, P1, DenseMatrix and SparseMatrix gates are written but have no reader: those are proved to be refused (C47_refused, C47_counterexample), and circuits with classical conditions are refused on writing (C47_conditions). The JSON library itself (text layer, number printing) is trusted; the model starts at the JSON tree."
  },
  {
   "property": "C48",
   "status": "partial",
   "theorems": [
    "Verif.Props.C48_round_trip_partial",
    "Verif.Props.C48_accepts",
    "Verif.Props.C48_condition_counterexample",
    "Verif.Props.C48_bit_counterexample"
   ],
   "note": "dumps silently drops conditions and the number of classical bits wraps for bit 2^64-1; both proved as counterexamples. Everything else is proved: acceptance is characterised exactly and the text read back acts as the original circuit. Library strtod/printf enter through StrtodOK and FormatOK. Circuits of factory gates: the model reads the class of a gate where the code reads its type, which get_inverse loses (C81)."
  },
  {
   "property": "C49",
   "status": "partial",
   "theorems": [
    "Verif.Props.C49_registers_partial",
    "Verif.Props.C49_stable",
    "Verif.Props.C49_counterexample"
   ],
   "note": "register sizes that add up to 2^64 or more make elements alias (proved counterexample); below that operands are exactly the flat indices."
  },
  {
   "property": "C50",
   "status": "proved",
   "theorems": [
    "Verif.Props.C50_gate",
    "Verif.Props.C50_pure",
    "Verif.Props.C50_throws"
   ],
   "note": "All gates with a density-matrix kernel (identity, global phase, one-qubit, SWAP, ECR) with any controls; n < 32 so that the cell count fits the index type. Every other gate class throws."
  },
  {
   "property": "C51",
   "status": "partial",
   "theorems": [
    "Verif.Props.C51_get_trace",
    "Verif.Props.C51_unitary_gates",
    "Verif.Props.C51_partial_trace_partial",
    "Verif.Props.C51_partial_trace_throws",
    "Verif.Props.C51_league_counterexample"
   ],
   "note": "Trace of unitary gates proved. Partial trace proved for fewer than 16 remaining qubits; from 16 on the league size overflows int and the code returns uninitialised memory (C51_league_counterexample)."
  },
  {
   "property": "C52",
   "status": "partial",
   "theorems": [
    "Verif.Props.C52_flag_partial",
    "Verif.Props.C52_counterexample"
   ],
   "note": "Proved for histories whose claims (load(matrix,true), force_hermitian, set_coherence_pair_at on the diagonal with a non-real value) are true; set_coherence_pair_at(i,i,z) with non-real z breaks the flag (C52_counterexample)."
  },
  {
   "property": "C53",
   "status": "partial",
   "theorems": [
    "Verif.Props.C53_permutation",
    "Verif.Props.C53_reachable_partial",
    "Verif.Props.C53_counterexample"
   ],
   "note": "Random::permutation always returns a permutation for every stream of engine outputs, and for n < 2^32 every permutation is reachable. For n >= 2^32 int32() < 2^32-1 makes the identity unreachable (counterexample). The distribution is the subject of C73."
  },
  {
   "property": "C54",
   "status": "proved",
   "theorems": [
    "Verif.Props.C54_expanded"
   ],
   "note": "get_expanded_matrix for every increasing enclosing list of at most 63 qubits: the overlapping assignments are modelled in loop order."
  },
  {
   "property": "C55",
   "status": "partial",
   "theorems": [
    "Verif.Props.C55_states_partial",
    "Verif.Props.C55_counterexample_race",
    "Verif.Props.C55_counterexample_chunk",
    "Verif.Props.C55_counterexample_qubits",
    "Verif.Props.C55_values_partial"
   ],
   "note": "Values: slot-wise for states of at least one qubit (0 qubits wrong). Applied states: under every schedule exactly the slot-wise applied states when no slot mixes terms without bit flips with terms flipping a qubit other than 0; for every mixed slot a data race is proved (plain += against atomic_add on the same cell), batch_size = 0 never terminates, states without qubits give 0."
  },
  {
   "property": "C56",
   "status": "partial",
   "theorems": [
    "Verif.Props.C56_add_batched",
    "Verif.Props.C56_add_batched_throws",
    "Verif.Props.C56_basis_batched",
    "Verif.Props.C56_norm_batched",
    "Verif.Props.C56_norm_inner",
    "Verif.Props.C56_normalize",
    "Verif.Props.C56_linear_partial",
    "Verif.Props.C56_counterexample_size",
    "Verif.Props.C56_normalize_batched"
   ],
   "note": "C56_add_batched holds in any arithmetic. C56_counterexample_size: the single-state add_state_vector_with_coef reads a smaller state out of range; the theorem C56_linear therefore assumes equal sizes."
  },
  {
   "property": "C57",
   "status": "partial",
   "theorems": [
    "Verif.Props.C57_batched_partial",
    "Verif.Props.C57_entropy_partial",
    "Verif.Props.C57_counterexample"
   ],
   "note": "Partial: single states in full; batches in full when every probability is at least 1e-15, otherwise up to 5e-14 per basis state (C57_batched_partial); C57_counterexample shows the batched code is not exact for |0>."
  },
  {
   "property": "C58",
   "status": "proved",
   "theorems": [
    "Verif.Props.C58_formulas",
    "Verif.Props.C58_pure",
    "Verif.Props.C58_sampling",
    "Verif.Props.C58_throws"
   ],
   "note": "Exact real arithmetic; the MDRange reduction of purity is modelled as one over rows of one over columns."
  },
  {
   "property": "C59",
   "status": "proved",
   "theorems": [
    "Verif.Props.C59_setters",
    "Verif.Props.C59_arithmetic",
    "Verif.Props.C59_total",
    "Verif.Props.C59_coherence"
   ],
   "note": "n < 32; normalize with trace 0 (NaN in the code) is a fault in the model."
  },
  {
   "property": "C60",
   "status": "proved",
   "theorems": [
    "Verif.Props.C60_loads_defined"
   ],
   "note": "factory arguments are taken to be evaluated left to right"
  },
  {
   "property": "C61",
   "status": "partial",
   "theorems": [
    "Verif.Props.C61_pauli",
    "Verif.Props.C61_operator_partial",
    "Verif.Props.C61_counterexample",
    "Verif.Props.C61_operator_batched",
    "Verif.Props.C61_state",
    "Verif.Props.C61_batch",
    "Verif.Props.C61_density"
   ],
   "note": "Everything is read back with the same terms, amplitudes and elements. The Hermitian flag of an Operator is not stored but recomputed, so it changes when the product had set it wrongly (C61_counterexample); otherwise the object is identical. Density matrices: fewer than 31 qubits (int counters). The text layer of the JSON library is trusted."
  },
  {
   "property": "C62",
   "status": "partial",
   "theorems": [
    "Verif.Props.C62_gate_partial",
    "Verif.Props.C62_param_gate_partial",
    "Verif.Props.C62_circuit_partial",
    "Verif.Props.C62_counterexample_target",
    "Verif.Props.C62_counterexample_values",
    "Verif.Props.C62_counterexample_permutation",
    "Verif.Props.C62_operator_partial",
    "Verif.Props.C62_counterexample_coef",
    "Verif.Props.C62_state_partial",
    "Verif.Props.C62_batch_partial",
    "Verif.Props.C62_density_partial",
    "Verif.Props.C62_counterexample_size",
    "Verif.Props.C62_counterexample_row"
   ],
   "note": "False as stated: the readers of gates do not check the number of targets or control values, the permutation reader shifts by 64, complex numbers are read by unchecked access, n_qubits is shifted before it is checked, and ragged matrices are written out of range (C62_counterexample_*). The _partial theorems state exactly the shape under which every reader throws or returns a factory-made object; sizes of states that are read are always consistent (no shape assumption)."
  },
  {
   "property": "C63",
   "status": "partial",
   "theorems": [
    "Verif.Props.C63_meaning_partial",
    "Verif.Props.C63_comment_joins_words"
   ],
   "note": "Proved for all programs of the grammar of Spec/QasmText.lean when comments are removed without leaving a separator; with comments as white space the claim fails (C63_comment_joins_words: a comment between a gate name and its operand joins them and the program is rejected). Total declared size below 2^64 is assumed (C49 shows the wrap)."
  },
  {
   "property": "C64",
   "status": "partial",
   "theorems": [
    "Verif.Props.C64_result",
    "Verif.Props.C64_default_shift",
    "Verif.Props.C64_fails",
    "Verif.Props.C64_energy_partial",
    "Verif.Props.C64_converges_partial",
    "Verif.Props.C64_counterexample"
   ],
   "note": "Energies, monotonicity, overlap bound and convergence for every shift that is above all energies and such that the ground energy is below it. Violated for the default shift when the initial state is an eigenstate whose eigenvalue equals the shift (Z on |0>): division by zero, C64_counterexample. Exact real arithmetic."
  },
  {
   "property": "C65",
   "status": "partial",
   "theorems": [
    "Verif.Props.C65_result_partial",
    "Verif.Props.C65_exact",
    "Verif.Props.C65_power",
    "Verif.Props.C65_counterexample_iterations",
    "Verif.Props.C65_counterexample_eigenstate",
    "Verif.Props.C65_counterexample_zero",
    "Verif.Props.C65_counterexample_norm"
   ],
   "note": "Proved for normalised initial states whose first k Krylov vectors are independent, with Eigen's solver replaced by any solver whose answers are eigenvalue decompositions (solver_exists: there is one). Violated for dependent Krylov vectors (always with more iterations than dimensions, and for eigenstates): division by zero; for states that are not normalised (2|1> with Z gives -7); for iter_count 0 (reads eigenvalues[0]). Exact arithmetic: in floating point the residual may be a rounding error instead of zero."
  },
  {
   "property": "C66",
   "status": "partial",
   "theorems": [
    "Verif.Props.C66_rejects",
    "Verif.Props.C66_tiny",
    "Verif.Props.C66_appends",
    "Verif.Props.C66_exact_partial",
    "Verif.Props.C66_trotter_partial",
    "Verif.Props.C66_converges",
    "Verif.Props.C66_counterexample",
    "Verif.Props.C66_counterexample_flag"
   ],
   "note": "C66_exact_partial: exact for commuting terms; C66_trotter_partial: explicit error bound for all real observables; C66_converges: the bound vanishes; C66_rejects, C66_appends, C66_tiny. Missing: angles below 1e-12 are ignored (C66_counterexample); products flagged Hermitian by mistake are accepted (C66_counterexample_flag)."
  },
  {
   "property": "C67",
   "status": "proved",
   "theorems": [
    "Verif.Props.C67_gate",
    "Verif.Props.C67_circuit",
    "Verif.Props.C67_norm"
   ],
   "note": "Standard model of rounding for any number type; exclusions in DESIGN.md section 4 item 1; assumptions met by an explicit 53-bit arithmetic."
  },
  {
   "property": "C68",
   "status": "proved",
   "theorems": [
    "Verif.Props.C68_gate",
    "Verif.Props.C68_circuit"
   ],
   "note": "Assumes no contraction of products and sums by the compiler."
  },
  {
   "property": "C69",
   "status": "proved",
   "theorems": [
    "Verif.Props.C69_gate",
    "Verif.Props.C69_circuit"
   ],
   "note": "Any arithmetic; the inner reduction over matrix columns is taken in order."
  },
  {
   "property": "C70",
   "status": "partial",
   "theorems": [
    "Verif.Props.C70_sharing_exact",
    "Verif.Props.C70_sharing_partial",
    "Verif.Props.C70_new_state_independent",
    "Verif.Props.C70_new_batch_independent",
    "Verif.Props.C70_others_unchanged",
    "Verif.Props.C70_view_partial",
    "Verif.Props.C70_copied_handle_partial",
    "Verif.Props.C70_copy_equal",
    "Verif.Props.C70_own_view_races",
    "Verif.Props.C70_sharing_counterexample"
   ],
   "note": "Exact refinement for the code (C70_sharing_exact, codeKit: kernels that swap buffers rebind the object) without exclusions; the claim itself (C70_sharing_partial, C70_view_partial, C70_copied_handle_partial) fails for sparse matrix gates and dense ones on three or more qubits, see C70_sharing_counterexample."
  },
  {
   "property": "C71",
   "status": "partial",
   "theorems": [
    "Verif.Props.C71_text_exact",
    "Verif.Props.C71_text_partial",
    "Verif.Props.C71_text_counterexample"
   ],
   "note": "Exact description C71_text_exact (numbers wrap modulo 2^64); the claim holds for texts without a minus sign (C71_text_partial); negative numbers are accepted and wrap (C71_text_counterexample)."
  },
  {
   "property": "C72",
   "status": "proved",
   "theorems": [
    "Verif.Props.C72_squared_norm",
    "Verif.Props.C72_zero_probability",
    "Verif.Props.C72_marginal_probability",
    "Verif.Props.C72_inner_product",
    "Verif.Props.C72_expectation",
    "Verif.Props.C72_circuit_probability",
    "Verif.Props.C72_circuit_expectation",
    "Verif.Props.C72_exact",
    "Verif.Props.C72_not_reproducible"
   ],
   "note": "Every outcome of the parallel reduction (any order, any grouping) is covered. The arithmetic is any type that meets the standard model (Accurate) and in which adding zero is exact (AddZero); both are met by 53-bit binary arithmetic (Bin.accurate, bin_addZero). C72_exact ties the models to those of C26, C33 and C56. C72_not_reproducible is part of the claim."
  },
  {
   "property": "C73",
   "status": "proved",
   "theorems": [
    "Verif.Props.C73_nearly_uniform",
    "Verif.Props.C73_relative_error",
    "Verif.Props.C73_biased"
   ],
   "note": "Counted over all sequences of n engine outputs: bounds on the probability of every rearrangement for n <= 2^31, simple relative bound for n(n+1) <= 2^32, and the proof that the distribution for n = 2 is not exactly uniform."
  },
  {
   "property": "C74",
   "status": "proved",
   "theorems": [
    "Verif.Props.C74_runs",
    "Verif.Props.C74_density",
    "Verif.Props.C74_register",
    "Verif.Props.C74_expectation",
    "Verif.Props.C74_born",
    "Verif.Props.C74_channel"
   ],
   "note": "Idealised source: independent real numbers, uniform in [0,1). Probabilities of a choice add up to exactly 1 (Fair); gates unitary. C74_runs: a run exists almost surely and is unique; C74_density, C74_register, C74_expectation: averages over the runs; C74_born, C74_channel: single measurement, single probabilistic gate."
  },
  {
   "property": "C75",
   "status": "proved",
   "theorems": [
    "Verif.Props.C75_any_state",
    "Verif.Props.C75_sampling",
    "Verif.Props.C75_returns",
    "Verif.Props.C75_batched",
    "Verif.Props.C75_density"
   ],
   "note": "Idealised source: all draws of all rounds independent and uniform in the real interval [0,1). C75_any_state: every state other than zero (cumulative distribution cut off at 1); C75_sampling: norm at most 1; C75_returns: termination almost surely; C75_batched."
  },
  {
   "property": "C76",
   "status": "proved",
   "theorems": [
    "Verif.Props.C76_sampling",
    "Verif.Props.C76_tables",
    "Verif.Props.C76_valid",
    "Verif.Props.C76_zero",
    "Verif.Props.C76_batched",
    "Verif.Props.C76_density",
    "Verif.Props.C76_circuit",
    "Verif.Props.C76_exact",
    "Verif.Props.C76_zero_returned"
   ],
   "note": "Proved for every arithmetic that meets Accurate, AddZero and Compares (double precision with 53 bits is an instance) and every grouping of the scan. C76_zero_returned is the witness that an index with amplitude zero can be returned; C76_exact ties the model to the exact one of C34/C75. The behaviour of parallel_scan on host back ends is read from knowledge of Kokkos."
  },
  {
   "property": "C77",
   "status": "proved",
   "theorems": [
    "Verif.Props.C77_returns",
    "Verif.Props.C77_shots",
    "Verif.Props.C77_mean",
    "Verif.Props.C77_variance",
    "Verif.Props.C77_deviation",
    "Verif.Props.C77_binomial",
    "Verif.Props.C77_density"
   ],
   "note": "Ideal random source: independent indices with the exact probabilities of the weights. Functions of the shots that do not depend on their order (the result is a multiset with counts). C77_density for unitary gates and probabilities that add up to 1; the other theorems for all weights the constructors accept. Circuits with measurements are refused (C45_measurement). Circuits of factory gates: the model reads the class of a gate where the code reads its type, which get_inverse loses (C81)."
  },
  {
   "property": "C78",
   "status": "proved",
   "theorems": [
    "Verif.Props.C78_returns",
    "Verif.Props.C78_haar",
    "Verif.Props.C78_unique",
    "Verif.Props.C78_mean",
    "Verif.Props.C78_circuit",
    "Verif.Props.C78_batched",
    "Verif.Props.C78_batched_same",
    "Verif.Props.C78_batched_returns",
    "Verif.Props.C78_density"
   ],
   "note": "Random numbers are independent exact standard normal variables and arithmetic is exact; the generators and seeds are not modelled."
  },
  {
   "property": "C79",
   "status": "proved",
   "theorems": [
    "Verif.Props.C79_regular",
    "Verif.Props.C79_density",
    "Verif.Props.C79_pauli",
    "Verif.Props.C79_observable",
    "Verif.Props.C79_limit"
   ],
   "note": "Random numbers are independent, uniform and real, arithmetic is exact. update_quantum_state rejects gates on a qubit measured without reset, so that case is excluded. Density matrices as states and simulate_noise are not part of this claim (see C77 for the latter)."
  },
  {
   "property": "C80",
   "status": "partial",
   "theorems": [
    "Verif.Props.C80_state",
    "Verif.Props.C80_state_determines",
    "Verif.Props.C80_batched",
    "Verif.Props.C80_density",
    "Verif.Props.C80_labels",
    "Verif.Props.C80_operator",
    "Verif.Props.C80_operator_determines",
    "Verif.Props.C80_operator_default",
    "Verif.Props.C80_gate_partial",
    "Verif.Props.C80_gate_determines_partial",
    "Verif.Props.C80_counterexample_u2",
    "Verif.Props.C80_pauli",
    "Verif.Props.C80_counterexample_control_values",
    "Verif.Props.C80_counterexample_coefficient",
    "Verif.Props.C80_measurement",
    "Verif.Props.C80_probabilistic",
    "Verif.Props.C80_parametric",
    "Verif.Props.C80_counterexample_parametric"
   ],
   "note": "All to_string functions of states, density matrices, operators and gates. C80_gate_partial and C80_gate_determines_partial leave out U2 (angles before the type, C80_counterexample_u2; still determined by its text) and Pauli gates (no control values and no coefficient shown: C80_counterexample_control_values, C80_counterexample_coefficient); parametric gates do not show control values (C80_counterexample_parametric). Matrices are never shown. The printer of floating point numbers is an arbitrary function of the number."
  },
  {
   "property": "C81",
   "status": "partial",
   "theorems": [
    "Verif.Props.C81_types",
    "Verif.Props.C81_cast_partial",
    "Verif.Props.C81_created",
    "Verif.Props.C81_null",
    "Verif.Props.C81_inverse_counterexample",
    "Verif.Props.C81_space_counterexample",
    "Verif.Props.C81_circuit_types",
    "Verif.Props.C81_running",
    "Verif.Props.C81_inverse",
    "Verif.Props.C81_made",
    "Verif.Props.C81_noise_partial",
    "Verif.Props.C81_gradient_partial",
    "Verif.Props.C81_export_counterexample",
    "Verif.Props.C81_noise_counterexample",
    "Verif.Props.C81_made_types",
    "Verif.Props.C81_flatten_made",
    "Verif.Props.C81_flatten_counterexample",
    "Verif.Props.C81_optimize_phase_counterexample",
    "Verif.Props.C81_optimize_choice_counterexample",
    "Verif.Props.C81_gradient_counterexample"
   ],
   "note": "Handles: every claim for gates whose type is known and classes other than matrix gates (C81_cast_partial). get_inverse loses the type (C81_inverse_counterexample), matrix gates of different execution spaces share one (C81_space_counterexample). Circuits: running is right for all circuits assembled from factory gates by inverting, joining and optimising (C81_running); the other functions for factory gates (C81_made) and under stated conditions; counterexamples for inverse circuits."
  },
  {
   "property": "C82",
   "status": "partial",
   "theorems": [
    "Verif.Props.C82_agree",
    "Verif.Props.C82_partial",
    "Verif.Props.C82_wiped",
    "Verif.Props.C82_negative",
    "Verif.Props.C82_counterexample"
   ],
   "note": "All gates but dense gates on three or more qubits and sparse gates: every size. Those: fewer than 2^31 groups of amplitudes. For multiples of 2^32 groups the result is zero on the selected amplitudes (C82_wiped), for 2^31 groups the league size is negative (C82_negative); witness C82_counterexample."
  },
  {
   "property": "C83",
   "status": "proved",
   "theorems": [
    "Verif.Props.C83_own_space",
    "Verif.Props.C83_own_space_batched",
    "Verif.Props.C83_any_space",
    "Verif.Props.C83_refused",
    "Verif.Props.C83_finished",
    "Verif.Props.C83_finished_batched",
    "Verif.Props.C83_stops",
    "Verif.Props.C83_inverse"
   ],
   "note": "Circuits and gates annotated with execution spaces; equivalence with the model of one space when all matrix gates belong to it, refusal otherwise (nothing silently computed). Spaces of gates built by merge_gate and optimize: C94."
  },
  {
   "property": "C84",
   "status": "partial",
   "theorems": [
    "Verif.Props.C84_entropy",
    "Verif.Props.C84_batched_partial",
    "Verif.Props.C84_density",
    "Verif.Props.C84_batched_nan",
    "Verif.Props.C84_half_counterexample",
    "Verif.Props.C84_exact"
   ],
   "note": "Single states and density matrices in full; batches for formats that represent 1e-15 (absolute error of at most 2e-15 in each probability). C84_half_counterexample: in half precision the batched entropy of |0> is NaN. Witness format for the hypotheses: 53-bit binary numbers; the half-precision witness is a model of binary16 with NaN, infinities and round to nearest."
  },
  {
   "property": "C85",
   "status": "partial",
   "theorems": [
    "Verif.Props.C85_sharing_partial",
    "Verif.Props.C85_independent",
    "Verif.Props.C85_view",
    "Verif.Props.C85_load_counterexample",
    "Verif.Props.C85_hermitian_counterexample"
   ],
   "note": "Exact result of every program on operator handles; left open is only load of a batched operator that another object shares, where the code breaks the other object (C85_load_counterexample). C85_hermitian_counterexample: the flag is_hermitian of an object that shares its terms can be wrong. The specification is in terms of cells without addresses; what optimize computes is codeNorm (C27)."
  },
  {
   "property": "C86",
   "status": "partial",
   "theorems": [
    "Verif.Props.C86_accepted_partial",
    "Verif.Props.C86_not_strict"
   ],
   "note": "Every accepted text is a program of the grammar of Spec/QasmLoose.lean and the result is the meaning of that program (C86_accepted_partial). Missing: that grammar is looser than OpenQASM 2.0, and C86_not_strict shows an accepted text (an index with a sign) that is no OpenQASM 2.0 program. Total declared size below 2^64 is assumed (C49 shows the wrap)."
  },
  {
   "property": "C87",
   "status": "partial",
   "theorems": [
    "Verif.Props.C87_gate_partial",
    "Verif.Props.C87_param_gate_partial",
    "Verif.Props.C87_circuit_partial",
    "Verif.Props.C87_unique",
    "Verif.Props.C87_counterexample_target",
    "Verif.Props.C87_counterexample_object",
    "Verif.Props.C87_conversions"
   ],
   "note": "Both directions: what a value says is read, and what is read from a value with the right numbers of targets is what it says. Missing: the readers check neither the number of targets (C87_counterexample_target) nor that a list of gates is an array (C87_counterexample_object)."
  },
  {
   "property": "C88",
   "status": "proved",
   "theorems": [
    "Verif.Props.C88_registers",
    "Verif.Props.C88_sizes",
    "Verif.Props.C88_independent",
    "Verif.Props.C88_cpp_assignment"
   ],
   "note": "Objects live as long as a name refers to them; the Python assignment to a slot (the C++ one does not compare sizes: C88_cpp_assignment)."
  },
  {
   "property": "C89",
   "status": "proved",
   "theorems": [
    "Verif.Props.C89_objects",
    "Verif.Props.C89_independent",
    "Verif.Props.C89_self_move"
   ],
   "note": "get_inverse, optimize and the observable rotation are not commands here (C39, C40, C66 treat them as functions of the value). A circuit that was moved from, and self-append by move, are left open (C89_self_move shows what happens)."
  },
  {
   "property": "C90",
   "status": "partial",
   "theorems": [
    "Verif.Props.C90_gate",
    "Verif.Props.C90_param",
    "Verif.Props.C90_circuit",
    "Verif.Props.C90_gate_batched_partial",
    "Verif.Props.C90_param_batched_partial",
    "Verif.Props.C90_circuit_batched_partial",
    "Verif.Props.C90_refused_kinds",
    "Verif.Props.C90_refused_parameters",
    "Verif.Props.C90_refused_sizes",
    "Verif.Props.C90_refused_bits",
    "Verif.Props.C90_repeatable",
    "Verif.Props.C90_counterexample"
   ],
   "note": "The batched statements need what C44 needs (probabilistic alternatives with small matrices or definite ones). Missing: the number of parameters of a batch is not checked without register and seed (C90_counterexample). How nanobind casts Python objects into the variants is not modelled."
  },
  {
   "property": "C91",
   "status": "partial",
   "theorems": [
    "Verif.Props.C91_objects",
    "Verif.Props.C91_refused",
    "Verif.Props.C91_values",
    "Verif.Props.C91_flag_partial",
    "Verif.Props.C91_flag_counterexample"
   ],
   "note": "Programs that use 32 or more qubits, the partial trace with 16 or more remaining qubits (C51) and normalisation of a matrix with trace 0 are outside the specification. Missing: is_hermitian() of objects that share a view (C91_flag_counterexample)."
  },
  {
   "property": "C92",
   "status": "proved",
   "theorems": [
    "Verif.Props.C92_single",
    "Verif.Props.C92_batch",
    "Verif.Props.C92_circuit",
    "Verif.Props.C92_determined",
    "Verif.Props.C92_lanes",
    "Verif.Props.C92_batch_same"
   ],
   "note": "Standard model of rounding as for C67. Coefficient, parameter and angle at most 32 in absolute value, real Pauli coefficient. Bitwise agreement of batches and single states assumes half(-x) = -half(x) (C92_batch_same). Batched circuits and parametric random choices in floating point are not covered."
  },
  {
   "property": "C93",
   "status": "partial",
   "theorems": [
    "Verif.Props.C93_normalize_partial",
    "Verif.Props.C93_normalize_batched_partial",
    "Verif.Props.C93_multiply",
    "Verif.Props.C93_add",
    "Verif.Props.C93_after_circuit",
    "Verif.Props.C93_half_counterexample"
   ],
   "note": "Missing: states whose squared norm underflows (C93_half_counterexample shows normalize failing there). Coefficients of at most one in absolute value; add_state_vector_with_coef of batches and density matrices in floating point are not covered."
  },
  {
   "property": "C94",
   "status": "partial",
   "theorems": [
    "Verif.Props.C94_merge",
    "Verif.Props.C94_merge_runs",
    "Verif.Props.C94_optimize",
    "Verif.Props.C94_outcome",
    "Verif.Props.C94_python_partial",
    "Verif.Props.C94_python_counterexample",
    "Verif.Props.C94_python_merge_counterexample"
   ],
   "note": "merge_gate and optimize on gate objects with spaces: same results as in one space, every gate from the input or made for the template argument, hence the same outcome on states of that space. Partial because the Python front end fixes the argument (Host, default space): proved counterexamples for HostSerial, and for the default space with CUDA."
  },
  {
   "property": "C95",
   "status": "proved",
   "theorems": [
    "Verif.Props.C95_gate",
    "Verif.Props.C95_sequence",
    "Verif.Props.C95_elements",
    "Verif.Props.C95_hermitian",
    "Verif.Props.C95_trace",
    "Verif.Props.C95_throws",
    "Verif.Props.C95_exact"
   ],
   "note": "Per-gate and per-sequence error bounds in the Frobenius norm, elements, Hermiticity, trace, uniqueness of the outcome, throwing calls and agreement with the exact model. Matrices of norm at most two (one for sequences), angles up to 32, fewer than 32 qubits. Exact (bit for bit) Hermiticity is not claimed: the dense kernel rounds the two triangles differently."
  },
  {
   "property": "C96",
   "status": "proved",
   "theorems": [
    "Verif.Props.C96_trace",
    "Verif.Props.C96_zero_probability",
    "Verif.Props.C96_marginal_probability",
    "Verif.Props.C96_purity",
    "Verif.Props.C96_partial_trace",
    "Verif.Props.C96_gates_trace",
    "Verif.Props.C96_gates_probability",
    "Verif.Props.C96_gates_purity",
    "Verif.Props.C96_exact"
   ],
   "note": "Error bounds of get_trace, get_zero_probability, get_marginal_probability, get_purity and get_partial_trace for every order of the additions, the throwing calls, the readings after a sequence of gates, and agreement with the exact models. get_partial_trace is stated for fewer than 16 remaining qubits because of the league size (C51_league_counterexample)."
  },
  {
   "property": "C97",
   "status": "proved",
   "theorems": [
    "Verif.Props.C97_load",
    "Verif.Props.C97_multiply",
    "Verif.Props.C97_add",
    "Verif.Props.C97_normalize",
    "Verif.Props.C97_simulation",
    "Verif.Props.C97_agree",
    "Verif.Props.C97_exact"
   ],
   "note": "Coefficients of magnitude at most 1, elements at most 4, trace of magnitude between 1/2 and 2 for normalize; registers below 32 qubits. The standard error model is the one of C67; the examples use 53-bit significands."
  },
  {
   "property": "C98",
   "status": "proved",
   "theorems": [
    "Verif.Props.C98_transition",
    "Verif.Props.C98_mismatch",
    "Verif.Props.C98_transition_batched",
    "Verif.Props.C98_expectation_batched",
    "Verif.Props.C98_pauli_expectation",
    "Verif.Props.C98_pauli_transition",
    "Verif.Props.C98_circuit_transition",
    "Verif.Props.C98_exact",
    "Verif.Props.C98_pauli_sizes_unchecked"
   ],
   "note": "Amplitudes at most 2 and coefficients at most 4 (Pauli operators 32), so that no intermediate number leaves the range in which the error model holds. Pauli operators for states of equal size; C98_pauli_sizes_unchecked records that sizes are not compared (as C23)."
  },
  {
   "property": "C99",
   "status": "partial",
   "theorems": [
    "Verif.Props.C99_transition_batched",
    "Verif.Props.C99_transition",
    "Verif.Props.C99_expectation_batched",
    "Verif.Props.C99_expectation",
    "Verif.Props.C99_mismatch",
    "Verif.Props.C99_values_partial",
    "Verif.Props.C99_counterexample_values",
    "Verif.Props.C99_pauli_expectation_batched",
    "Verif.Props.C99_exact"
   ],
   "note": "Readings of batched operators (one pair of states and batches), refusals, single terms, Pauli expectation values of batches, agreement with the exact models. Partial only for get_expectation_values: at 32 qubits the loop bound cast to int is negative and every outcome is a list of zeros (C99_counterexample_values)."
  },
  {
   "property": "C100",
   "status": "proved",
   "theorems": [
    "Verif.Props.C100_store",
    "Verif.Props.C100_kernel",
    "Verif.Props.C100_get",
    "Verif.Props.C100_representable",
    "Verif.Props.C100_again",
    "Verif.Props.C100_internal",
    "Verif.Props.C100_inverse",
    "Verif.Props.C100_inverse_twice",
    "Verif.Props.C100_inverse_throws"
   ],
   "note": "All sizes below 2^31 and all schedules. The conversion from double and back is assumed to change nothing for numbers of the gate's precision (shown for 53-bit numbers); the branch for double precision and the copies between host and device are element-wise copies and are not modelled separately."
  },
  {
   "property": "C101",
   "status": "partial",
   "theorems": [
    "Verif.Props.C101_apply_partial",
    "Verif.Props.C101_get_matrix_partial",
    "Verif.Props.C101_internal_partial",
    "Verif.Props.C101_counterexample_uncompressed"
   ],
   "note": "Proved for compressed matrices (and all matrices with unsorted targets). C101_counterexample_uncompressed: for every matrix with a reserved slot and sorted targets the gate and its readings are undefined behaviour."
  },
  {
   "property": "C102",
   "status": "proved",
   "theorems": [
    "Verif.Props.C102_bound",
    "Verif.Props.C102_kept",
    "Verif.Props.C102_merged"
   ],
   "note": "The bound holds for circuits of any length. That gates which fit are merged, and gates which do not fit are kept, is stated for circuits of two gates; merges that lose a qubit are the subject of C40."
  }
 ]
}