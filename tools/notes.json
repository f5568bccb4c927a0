{
"C01": {"note": "Every index of the state is visited by exactly one work item of the kernels' index enumeration."},
"C02": {"note": "Device regions end in the same memory under every interleaving, without race or out-of-range access."},
"C04": {"note": "C04_swap_no_arithmetic: holds for every number type, only moves amplitudes."},
"C06": {"note": "C06_rejects: lists that are not permutations are rejected with an exception."},
"C08": {"note": "For matrices of matching size without repeated entries (Eigen compressed storage); the missing size check is recorded in DESIGN.md."},
"C14": {"note": "Partial: PauliGate::get_inverse returns the gate itself, wrong when coef^2 is not 1 (C14_pauli_counterexample)."},
"C16": {"note": "Partial: Pauli and PauliRotation gates have no bounds check (C16_pauli_counterexample)."},
"C21": {"note": "Pauli operators and operators."},
"C24": {"note": "Partial: the batched transition amplitude is wrong (C24_counterexample); proved for strings without X/Y and real amplitudes."},
"C25": {"note": "Partial: get_full_matrix drops the coefficient (C25_counterexample); get_matrix is right."},
"C26": {"note": "Partial: application and full matrix for all sizes; values for n >= 1 (C26_counterexample at n = 0); get_expectation_values for n <= 31 (C26_values_counterexample at n = 32)."},
"C29": {"note": "Partial: sound and complete without products; Operator*Operator inverts the test and Operator*Pauli only looks at the factor's coefficient (three counterexamples)."},
"C30": {"note": "Layout invariant (row pointers and flattened terms), sum and product under every schedule of the nested loops, load."},
"C31": {"note": "Partial: the code indexes the coefficients by flattened term index; counterexamples for slots with zero or several terms."},
"C32": {"note": "Partial: the size check asks for one element too many; the product always reads out of range (proved for every input)."},
"C55": {"note": "Values: slot-wise for states of at least one qubit (0 qubits wrong). Applied states: under every schedule exactly the slot-wise applied states when no slot mixes terms without bit flips with terms flipping a qubit other than 0; for every mixed slot a data race is proved (plain += against atomic_add on the same cell), batch_size = 0 never terminates, states without qubits give 0."},
"C33": {"note": "Exact arithmetic; n <= 63 because the dimension is 1ULL << n."},
"C34": {"note": "Random numbers are inputs. Normalised states: the result is the unique list given by inverse CDF on the first draws; any state: what is returned is valid; zero-norm states never return (C34_zero_norm_never_returns)."},
"C56": {"note": "C56_add_batched holds in any arithmetic. C56_counterexample_size: the single-state add_state_vector_with_coef reads a smaller state out of range; the theorem C56_linear therefore assumes equal sizes."},
"C57": {"note": "Partial: single states in full; batches in full when every probability is at least 1e-15, otherwise up to 5e-14 per basis state (C57_batched_partial); C57_counterexample shows the batched code is not exact for |0>."},
"C35": {"note": "Normalised states, single and batched; C35_measure_any covers other states as long as the outcome has nonzero probability, C35_unnormalised shows the undefined behaviour outside. Exact arithmetic; the draw of std::bernoulli_distribution is modelled as one uniform number compared with p."},
"C36": {"note": "Any nesting depth, any draw; batched; inverse. Distribution entries are real numbers or NaN (none). Partial because a batch loses chosen gates that are sparse matrices or dense matrices on three or more qubits (C36_batched_counterexample)."},
"C37": {"note": "All four factories, exactly the documented probabilities; rates outside [0,1] rejected."},
"C38": {"note": "Circuits are built from lines (gate, random choice, measurement, parametric rotation, parametric random choice, each possibly conditional). In-order execution, appending, and absence of faults for unitary gates on normalised states; floating-point rounding not modelled."},
"C43": {"note": "Missing keys are rejected before anything changes, single and batched; extra keys make no difference; wrong length rejected for batches."},
"C44": {"note": "Single-state and slot-wise batched execution of conditional lines. Partial because the batched update does not check conditional gates against qubits measured without reset (C44_counterexample) and loses conditional sparse matrices and dense matrices on three or more qubits (C44_counterexample_lost)."},
"C39": {"note": "Gates and parametric rotations, possibly conditional. Random choices: the inverse restores the state if it meets the same random numbers in reverse order (C39_same_draws); with fresh draws it need not (counterexample). Counterexample: Pauli gates with coefficient not squaring to 1."},
"C42": {"note": "All circuits without random choices; with one, calculate_depth throws (C42_throws)."},
"C53": {"note": "Random::permutation always returns a permutation for every stream of engine outputs, and for n < 2^32 every permutation is reachable. For n >= 2^32 int32() < 2^32-1 makes the identity unreachable (counterexample). The distribution is the subject of C73."},
"C54": {"note": "get_expanded_matrix for every increasing enclosing list of at most 63 qubits: the overlapping assignments are modelled in loop order."},
"C41": {"note": "All pairs of gates of every class. Two gates with a matrix other than permutation gates: merge_gate succeeds and is the composition exactly, except for z-rotations whose RZ angles add up to less than 2e-12, where the code drops a phase (counterexample theorem). Permutation and probabilistic gates are refused by an exception. A measurement is merged with the identity and with uncontrolled global phases (same outcome, register and state up to the returned phase); with every other gate the call throws. Circuits of factory gates: the model reads the class of a gate where the code reads its type, which get_inverse loses (C81)."},
"C40": {"note": "False as stated: for every block size X(0),X(0) becomes X(0) (C40_counterexample), and gates without operands are dropped (C40_counterexample_no_operand). Proved for arbitrary circuits (conditions, measurements, random choices, parametric gates) and every block size: whenever each merge that took place keeps the qubits of both gates, the outcome is unchanged up to one phase <= 1e-12 (C40_merges_partial); this always holds for circuits whose unconditional gates are not from the cancelling families (C40_families_partial). C40_total: no exception without unconditional permutation gates. Exact complex arithmetic. Circuits of factory gates: the model reads the class of a gate where the code reads its type, which get_inverse loses (C81)."},
"C45": {"note": "C45_paths: full description of the result for every circuit without measurements (conditions ignored, as in the code): one path per shot built from the draws, each path reported once with its number of shots and state. C45_shots: counts add up. C45_runs_partial: for circuits without classical conditions every returned state is the end of a run of update_quantum_state with suitable random numbers. C45_counterexample: with a classical condition the property fails, simulate_noise applies the gate although its condition is false. C45_measurement: measurement gates are refused by an exception. The values of std::discrete_distribution are an arbitrary stream of indices with positive weight. Circuits of factory gates: the model reads the class of a gate where the code reads its type, which get_inverse loses (C81)."},
"C46": {"note": "Circuits of unconditional unitary gates and uncontrolled parametric rotations with real non-negligible factors, and observables whose X and Y letters lie on the circuit's qubits (Z anywhere): the returned map holds exactly the derivatives (sums over repeated keys). Controlled rotations give wrong results (C46_controlled_counterexample); an X or Y on a qubit the circuit does not use makes the code read outside the state (C46_outside). Circuits with random choices are outside the statement (their inverse draws again). Circuits of factory gates: the model reads the class of a gate where the code reads its type, which get_inverse loses (C81)."},
"C50": {"note": "All gates with a density-matrix kernel (identity, global phase, one-qubit, SWAP, ECR) with any controls; n < 32 so that the cell count fits the index type. Every other gate class throws."},
"C51": {"note": "Trace of unitary gates proved. Partial trace proved for fewer than 16 remaining qubits; from 16 on the league size overflows int and the code returns uninitialised memory (C51_league_counterexample)."},
"C52": {"note": "Proved for histories whose claims (load(matrix,true), force_hermitian, set_coherence_pair_at on the diagonal with a non-real value) are true; set_coherence_pair_at(i,i,z) with non-real z breaks the flag (C52_counterexample)."},
"C58": {"note": "Exact real arithmetic; the MDRange reduction of purity is modelled as one over rows of one over columns."},
"C59": {"note": "n < 32; normalize with trace 0 (NaN in the code) is a fault in the model."},
"C48": {"note": "dumps silently drops conditions and the number of classical bits wraps for bit 2^64-1; both proved as counterexamples. Everything else is proved: acceptance is characterised exactly and the text read back acts as the original circuit. Library strtod/printf enter through StrtodOK and FormatOK. Circuits of factory gates: the model reads the class of a gate where the code reads its type, which get_inverse loses (C81)."},
"C49": {"note": "register sizes that add up to 2^64 or more make elements alias (proved counterexample); below that operands are exactly the flat indices."},
"C60": {"note": "factory arguments are taken to be evaluated left to right"},
"C47": {"note": "Every gate, parametric gate and circuit made by the factory functions is read back as the identical object, except that P0, P1, DenseMatrix and SparseMatrix gates are written but have no reader: those are proved to be refused (C47_refused, C47_counterexample), and circuits with classical conditions are refused on writing (C47_conditions). The JSON library itself (text layer, number printing) is trusted; the model starts at the JSON tree."},
"C61": {"note": "Everything is read back with the same terms, amplitudes and elements. The Hermitian flag of an Operator is not stored but recomputed, so it changes when the product had set it wrongly (C61_counterexample); otherwise the object is identical. Density matrices: fewer than 31 qubits (int counters). The text layer of the JSON library is trusted."},
"C62": {"note": "False as stated: the readers of gates do not check the number of targets or control values, the permutation reader shifts by 64, complex numbers are read by unchecked access, n_qubits is shifted before it is checked, and ragged matrices are written out of range (C62_counterexample_*). The _partial theorems state exactly the shape under which every reader throws or returns a factory-made object; sizes of states that are read are always consistent (no shape assumption)."},
"C63": {"note": "Proved for all programs of the grammar of Spec/QasmText.lean when comments are removed without leaving a separator; with comments as white space the claim fails (C63_comment_joins_words: a comment between a gate name and its operand joins them and the program is rejected). Total declared size below 2^64 is assumed (C49 shows the wrap)."},
"C64": {"note": "Energies, monotonicity, overlap bound and convergence for every shift that is above all energies and such that the ground energy is below it. Violated for the default shift when the initial state is an eigenstate whose eigenvalue equals the shift (Z on |0>): division by zero, C64_counterexample. Exact real arithmetic."},
"C65": {"note": "Proved for normalised initial states whose first k Krylov vectors are independent, with Eigen's solver replaced by any solver whose answers are eigenvalue decompositions (solver_exists: there is one). Violated for dependent Krylov vectors (always with more iterations than dimensions, and for eigenstates): division by zero; for states that are not normalised (2|1> with Z gives -7); for iter_count 0 (reads eigenvalues[0]). Exact arithmetic: in floating point the residual may be a rounding error instead of zero."},
"C66": {"note": "C66_exact_partial: exact for commuting terms; C66_trotter_partial: explicit error bound for all real observables; C66_converges: the bound vanishes; C66_rejects, C66_appends, C66_tiny. Missing: angles below 1e-12 are ignored (C66_counterexample); products flagged Hermitian by mistake are accepted (C66_counterexample_flag)."},
"C67": {"note": "Standard model of rounding for any number type; exclusions in DESIGN.md section 4 item 1; assumptions met by an explicit 53-bit arithmetic."},
"C68": {"note": "Assumes no contraction of products and sums by the compiler."},
"C69": {"note": "Any arithmetic; the inner reduction over matrix columns is taken in order."},
"C70": {"note": "Exact refinement for the code (C70_sharing_exact, codeKit: kernels that swap buffers rebind the object) without exclusions; the claim itself (C70_sharing_partial, C70_view_partial, C70_copied_handle_partial) fails for sparse matrix gates and dense ones on three or more qubits, see C70_sharing_counterexample."},
"C71": {"note": "Exact description C71_text_exact (numbers wrap modulo 2^64); the claim holds for texts without a minus sign (C71_text_partial); negative numbers are accepted and wrap (C71_text_counterexample)."},
"C72": {"note": "Every outcome of the parallel reduction (any order, any grouping) is covered. The arithmetic is any type that meets the standard model (Accurate) and in which adding zero is exact (AddZero); both are met by 53-bit binary arithmetic (Bin.accurate, bin_addZero). C72_exact ties the models to those of C26, C33 and C56. C72_not_reproducible is part of the claim."},
"C73": {"note": "Counted over all sequences of n engine outputs: bounds on the probability of every rearrangement for n <= 2^31, simple relative bound for n(n+1) <= 2^32, and the proof that the distribution for n = 2 is not exactly uniform."},
"C74": {"note": "Idealised source: independent real numbers, uniform in [0,1). Probabilities of a choice add up to exactly 1 (Fair); gates unitary. C74_runs: a run exists almost surely and is unique; C74_density, C74_register, C74_expectation: averages over the runs; C74_born, C74_channel: single measurement, single probabilistic gate."},
"C75": {"note": "Idealised source: all draws of all rounds independent and uniform in the real interval [0,1). C75_any_state: every state other than zero (cumulative distribution cut off at 1); C75_sampling: norm at most 1; C75_returns: termination almost surely; C75_batched."},
"C76": {"note": "Proved for every arithmetic that meets Accurate, AddZero and Compares (double precision with 53 bits is an instance) and every grouping of the scan. C76_zero_returned is the witness that an index with amplitude zero can be returned; C76_exact ties the model to the exact one of C34/C75. The behaviour of parallel_scan on host back ends is read from knowledge of Kokkos."},
"C77": {"note": "Ideal random source: independent indices with the exact probabilities of the weights. Functions of the shots that do not depend on their order (the result is a multiset with counts). C77_density for unitary gates and probabilities that add up to 1; the other theorems for all weights the constructors accept. Circuits with measurements are refused (C45_measurement). Circuits of factory gates: the model reads the class of a gate where the code reads its type, which get_inverse loses (C81)."},
"C78": {"note": "Random numbers are independent exact standard normal variables and arithmetic is exact; the generators and seeds are not modelled."},
"C79": {"note": "Random numbers are independent, uniform and real, arithmetic is exact. update_quantum_state rejects gates on a qubit measured without reset, so that case is excluded. Density matrices as states and simulate_noise are not part of this claim (see C77 for the latter)."},
"C80": {"note": "All to_string functions of states, density matrices, operators and gates. C80_gate_partial and C80_gate_determines_partial leave out U2 (angles before the type, C80_counterexample_u2; still determined by its text) and Pauli gates (no control values and no coefficient shown: C80_counterexample_control_values, C80_counterexample_coefficient); parametric gates do not show control values (C80_counterexample_parametric). Matrices are never shown. The printer of floating point numbers is an arbitrary function of the number."},
"C81": {"note": "Handles: every claim for gates whose type is known and classes other than matrix gates (C81_cast_partial). get_inverse loses the type (C81_inverse_counterexample), matrix gates of different execution spaces share one (C81_space_counterexample). Circuits: running is right for all circuits assembled from factory gates by inverting, joining and optimising (C81_running); the other functions for factory gates (C81_made) and under stated conditions; counterexamples for inverse circuits."},
"C82": {"note": "All gates but dense gates on three or more qubits and sparse gates: every size. Those: fewer than 2^31 groups of amplitudes. For multiples of 2^32 groups the result is zero on the selected amplitudes (C82_wiped), for 2^31 groups the league size is negative (C82_negative); witness C82_counterexample."},
"C83": {"note": "Circuits and gates annotated with execution spaces; equivalence with the model of one space when all matrix gates belong to it, refusal otherwise (nothing silently computed). Spaces of gates built by merge_gate and optimize: C94."},
"C84": {"note": "Single states and density matrices in full; batches for formats that represent 1e-15 (absolute error of at most 2e-15 in each probability). C84_half_counterexample: in half precision the batched entropy of |0> is NaN. Witness format for the hypotheses: 53-bit binary numbers; the half-precision witness is a model of binary16 with NaN, infinities and round to nearest."},
"C85": {"note": "Exact result of every program on operator handles; left open is only load of a batched operator that another object shares, where the code breaks the other object (C85_load_counterexample). C85_hermitian_counterexample: the flag is_hermitian of an object that shares its terms can be wrong. The specification is in terms of cells without addresses; what optimize computes is codeNorm (C27)."},
"C86": {"note": "Every accepted text is a program of the grammar of Spec/QasmLoose.lean and the result is the meaning of that program (C86_accepted_partial). Missing: that grammar is looser than OpenQASM 2.0, and C86_not_strict shows an accepted text (an index with a sign) that is no OpenQASM 2.0 program. Total declared size below 2^64 is assumed (C49 shows the wrap)."},
"C87": {"note": "Both directions: what a value says is read, and what is read from a value with the right numbers of targets is what it says. Missing: the readers check neither the number of targets (C87_counterexample_target) nor that a list of gates is an array (C87_counterexample_object)."},
"C23": {"note": "For two states with the same number of qubits; the code does not compare the sizes, C23_sizes_unchecked shows the read out of range for a smaller ket."},
"C88": {"note": "Objects live as long as a name refers to them; the Python assignment to a slot (the C++ one does not compare sizes: C88_cpp_assignment)."},
"C89": {"note": "get_inverse, optimize and the observable rotation are not commands here (C39, C40, C66 treat them as functions of the value). A circuit that was moved from, and self-append by move, are left open (C89_self_move shows what happens)."},
"C90": {"note": "The batched statements need what C44 needs (probabilistic alternatives with small matrices or definite ones). Missing: the number of parameters of a batch is not checked without register and seed (C90_counterexample). How nanobind casts Python objects into the variants is not modelled."},
"C91": {"note": "Programs that use 32 or more qubits, the partial trace with 16 or more remaining qubits (C51) and normalisation of a matrix with trace 0 are outside the specification. Missing: is_hermitian() of objects that share a view (C91_flag_counterexample)."},
"C92": {"note": "Standard model of rounding as for C67. Coefficient, parameter and angle at most 32 in absolute value, real Pauli coefficient. Bitwise agreement of batches and single states assumes half(-x) = -half(x) (C92_batch_same). Batched circuits and parametric random choices in floating point are not covered."},
"C93": {"note": "Missing: states whose squared norm underflows (C93_half_counterexample shows normalize failing there). Coefficients of at most one in absolute value; add_state_vector_with_coef of batches and density matrices in floating point are not covered."},
"C94": {"note": "merge_gate and optimize on gate objects with spaces: same results as in one space, every gate from the input or made for the template argument, hence the same outcome on states of that space. Partial because the Python front end fixes the argument (Host, default space): proved counterexamples for HostSerial, and for the default space with CUDA."},
"C95": {"note": "Per-gate and per-sequence error bounds in the Frobenius norm, elements, Hermiticity, trace, uniqueness of the outcome, throwing calls and agreement with the exact model. Matrices of norm at most two (one for sequences), angles up to 32, fewer than 32 qubits. Exact (bit for bit) Hermiticity is not claimed: the dense kernel rounds the two triangles differently."},
"C96": {"note": "Error bounds of get_trace, get_zero_probability, get_marginal_probability, get_purity and get_partial_trace for every order of the additions, the throwing calls, the readings after a sequence of gates, and agreement with the exact models. get_partial_trace is stated for fewer than 16 remaining qubits because of the league size (C51_league_counterexample)."},
"C97": {"note": "Coefficients of magnitude at most 1, elements at most 4, trace of magnitude between 1/2 and 2 for normalize; registers below 32 qubits. The standard error model is the one of C67; the examples use 53-bit significands."},
"C98": {"note": "Amplitudes at most 2 and coefficients at most 4 (Pauli operators 32), so that no intermediate number leaves the range in which the error model holds. Pauli operators for states of equal size; C98_pauli_sizes_unchecked records that sizes are not compared (as C23)."},
"C99": {"note": "Readings of batched operators (one pair of states and batches), refusals, single terms, Pauli expectation values of batches, agreement with the exact models. Partial only for get_expectation_values: at 32 qubits the loop bound cast to int is negative and every outcome is a list of zeros (C99_counterexample_values)."},
"C100": {"note": "All sizes below 2^31 and all schedules. The conversion from double and back is assumed to change nothing for numbers of the gate's precision (shown for 53-bit numbers); the branch for double precision and the copies between host and device are element-wise copies and are not modelled separately."},
"C101": {"note": "Proved for compressed matrices (and all matrices with unsorted targets). C101_counterexample_uncompressed: for every matrix with a reserved slot and sorted targets the gate and its readings are undefined behaviour."},
"C102": {"note": "The bound holds for circuits of any length. That gates which fit are merged, and gates which do not fit are kept, is stated for circuits of two gates; merges that lose a qubit are the subject of C40."}
}
