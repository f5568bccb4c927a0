{"id": "C01", "title": "Work items of a gate partition the selected amplitudes", "statement": "When a gate with a set of target qubits and a set of control qubits (with required values) is applied to a register of n qubits (single or batched), every amplitude whose index satisfies the control values is handled by exactly one work item, every work item handles only such amplitudes, and no work item refers to an amplitude outside the state.", "quantifier": "every n < 64, every batch size that fits in 64-bit indices, every disjoint target/control sets inside the register, every assignment of control values", "why_tests_cant": "there are more than 3^n placements of targets and controls times 2^n values; tests try a handful, and a wrong bit trick on one placement (e.g. adjacent or top-most qubits) corrupts states silently", "anchors": ["include/scaluq/util/utility.hpp: insert_zero_at_mask_positions", "src/gate/update_ops_standard.cpp: x_gate", "src/gate/update_ops_matrix.cpp: one_target_dense_matrix_gate_scalar"]}
{"id": "C02", "title": "Gate updates do not depend on thread scheduling", "statement": "Applying any state-vector gate gives the same final state whatever the order or interleaving in which the backend executes the parallel work items; no two work items touch a common amplitude, so there is no data race, and no access is out of range.", "quantifier": "every interleaving of the individual loads and stores of all work items, every state, every valid operand set", "why_tests_cant": "the number of interleavings is astronomically large and the host scheduler only ever shows a few of them", "anchors": ["src/gate/update_ops_standard.cpp", "src/gate/update_ops_matrix.cpp", "include/scaluq/operator/apply_pauli.hpp: apply_pauli, apply_pauli_rotation"]}
{"id": "C03", "title": "One-qubit gates act as their matrix on the target and only where controls hold", "statement": "Applying a one-target gate (X, Y, Z, H, S, Sdag, T, Tdag, SqrtX, SqrtXdag, SqrtY, SqrtYdag, P0, P1, RX, RY, RZ, U1, U2, U3) with any controls replaces each amplitude whose index satisfies the control values by the corresponding row of the gate's 2x2 matrix applied to the pair of amplitudes differing in the target bit, and leaves every other amplitude exactly as it was.", "quantifier": "every gate kind, all angles, every target, every control set and value assignment, every state of any size", "why_tests_cant": "continuous angles and exponentially many operand placements and states", "anchors": ["src/gate/update_ops_standard.cpp", "src/gate/update_ops_matrix.cpp", "src/gate/update_ops.hpp", "src/gate/gate_standard.cpp: get_matrix"]}
{"id": "C04", "title": "Swap exchanges the two qubits exactly", "statement": "Applying Swap(a,b) with any controls moves the amplitude of every control-satisfying index to the index with bits a and b exchanged, bit for bit without arithmetic; other amplitudes are unchanged; applying it twice restores the state.", "quantifier": "every pair of distinct qubits, every control set/values, every state", "why_tests_cant": "exponentially many operand placements and states", "anchors": ["src/gate/update_ops_standard.cpp: swap_gate", "include/scaluq/gate/gate_factory.hpp: Swap"]}
{"id": "C05", "title": "ECR acts as its 4x4 matrix in the order control/target given by the caller", "statement": "Applying Ecr(control, target) acts on the two qubits as (1/sqrt2)(IX - XY)-type echoed cross resonance matrix reported by get_matrix, for both relative orders of the two qubits, and applying it twice is the identity.", "quantifier": "every ordered pair of distinct qubits, every extra control set, every state", "why_tests_cant": "asymmetric gates typically fail only for one of the two orders combined with particular controls", "anchors": ["src/gate/update_ops_standard.cpp: ecr_gate", "src/gate/gate_standard.cpp: EcrGateImpl::get_matrix"]}
{"id": "C06", "title": "Permutation gate moves qubit q to dst[q]", "statement": "Applying Permutation(dst) maps the basis state with bits x_q to the basis state whose bit dst[q] equals x_q, for every permutation dst of [0,k) on a register of n >= k qubits; it agrees with the matrix reported by get_matrix, and get_inverse undoes it.", "quantifier": "every permutation of every length, every state", "why_tests_cant": "k! permutations; the implementation goes through a cycle-following swap schedule whose correctness depends on the cycle structure", "anchors": ["include/scaluq/gate/gate_standard.hpp: PermutationGateImpl ctor", "src/gate/update_ops_standard.cpp: permutation_gate", "src/gate/gate_standard.cpp: PermutationGateImpl::get_matrix, get_inverse"]}
{"id": "C07", "title": "Dense matrix gates act as the user's matrix in the user's qubit order", "statement": "DenseMatrix(targets, M, controls) applied to a state multiplies the sub-vector addressed by the targets, in the order listed by the caller (targets[0] = least significant bit of the matrix index), by M where the controls hold, and leaves all other amplitudes unchanged, for 0, 1, 2 and more targets, sorted or not.", "quantifier": "every number and order of targets, every matrix, every control set, every state", "why_tests_cant": "four separate kernels plus a matrix re-ordering step; all placements and orders cannot be enumerated", "anchors": ["include/scaluq/gate/gate_factory.hpp: DenseMatrix", "include/scaluq/util/utility.hpp: transform_dense_matrix_by_order", "src/gate/update_ops_matrix.cpp: zero_target.., one_target.., two_target.., multi_dense_matrix_gate", "src/gate/gate_matrix.cpp"]}
{"id": "C08", "title": "Sparse matrix gates equal dense matrix gates", "statement": "SparseMatrix(targets, S, controls) changes the state exactly as DenseMatrix(targets, S as dense, controls) does, for every compressed-row matrix.", "quantifier": "every CSR matrix (any number of stored entries per row), every target and control set, every state", "why_tests_cant": "unbounded space of sparsity patterns", "anchors": ["src/gate/update_ops_matrix.cpp: sparse_matrix_gate", "include/scaluq/types.hpp: SparseMatrix"]}
{"id": "C09", "title": "The vectorised path computes what the scalar path computes", "statement": "For a one-target or zero-target dense matrix gate the SIMD implementation, whenever it is selected, produces the same state as the scalar implementation.", "quantifier": "every lane count that is a power of two, every n, batch size, target, control set for which the dispatcher selects SIMD", "why_tests_cant": "the selected path depends on CPU and on the bit pattern of the operands", "anchors": ["src/gate/update_ops_matrix.cpp: one_target_dense_matrix_gate_simd, zero_target_dense_matrix_gate_simd and dispatchers", "include/scaluq/util/simd_complex.hpp"]}
{"id": "C10", "title": "A batched gate update equals updating every state on its own", "statement": "Applying a gate to a batch of states gives in each batch slot exactly what applying the gate to that state alone would give; states in a batch never influence each other.", "quantifier": "every batch size, every gate, every state in every slot", "why_tests_cant": "cross-batch leakage can occur only for particular combinations of batch size, qubit count and operand position", "anchors": ["include/scaluq/state/state_vector_batched.hpp: at_unsafe, flat_dim", "src/gate/update_ops_standard.cpp", "src/gate/update_ops_matrix.cpp"]}
{"id": "C11", "title": "Pauli gate and PauliOperator application act as the Pauli tensor product", "statement": "Applying a Pauli string with coefficient c to a state maps the amplitude at x to c * (phase) at x with the X/Y positions flipped, exactly as the tensor product of the 2x2 Pauli matrices, with controls honoured.", "quantifier": "every Pauli string, coefficient, control set, state", "why_tests_cant": "4^n strings times all states", "anchors": ["include/scaluq/operator/apply_pauli.hpp: apply_pauli", "src/operator/pauli_operator.cpp"]}
{"id": "C12", "title": "Pauli rotation equals exp(-i angle/2 c P)", "statement": "PauliRotation(P, angle) acts as cos(a/2) I - i sin(a/2) P with a = angle * coef for every Pauli string P with real coefficient on the control-satisfying subspace and as identity elsewhere.", "quantifier": "every Pauli string (including identity and Z-only strings), every angle, every control set, every state", "why_tests_cant": "continuous angles, 4^n strings", "anchors": ["include/scaluq/operator/apply_pauli.hpp: apply_pauli_rotation", "src/gate/gate_pauli.cpp"]}
{"id": "C13", "title": "Unitary gates preserve the norm", "statement": "The squared norm reported after applying any standard unitary gate (with any controls) equals the squared norm before.", "quantifier": "every standard unitary gate, all angles, operands, states", "why_tests_cant": "continuous state space", "anchors": ["src/gate/update_ops_standard.cpp", "src/gate/update_ops_matrix.cpp", "src/state/state_vector.cpp: get_squared_norm"]}
{"id": "C14", "title": "get_inverse really undoes the gate", "statement": "For every gate kind whose get_inverse does not throw, applying the gate and then its inverse leaves every state unchanged.", "quantifier": "every gate kind, all angles, operands, coefficients, states", "why_tests_cant": "continuous parameters; U2/U3 inverses rely on trigonometric identities", "anchors": ["include/scaluq/gate/gate_standard.hpp: get_inverse", "include/scaluq/gate/gate_pauli.hpp: get_inverse", "src/gate/gate_matrix.cpp: get_inverse"]}
{"id": "C15", "title": "get_matrix describes what update_quantum_state does", "statement": "The matrix returned by get_matrix, applied to the target qubits under the control condition, is the operation performed by update_quantum_state.", "quantifier": "every gate kind with a matrix, all angles, all states", "why_tests_cant": "matrix and kernel are coded independently for every gate kind", "anchors": ["src/gate/gate_standard.cpp", "src/gate/update_ops_standard.cpp"]}
{"id": "C16", "title": "Operands outside the register are rejected and the state is untouched", "statement": "Applying a gate whose target or control qubit is not a qubit of the given state raises an error and leaves the state unchanged; it never reads or writes outside the state.", "quantifier": "every gate kind, every operand set, every register size", "why_tests_cant": "an out-of-range access may go unnoticed in a test run", "anchors": ["src/gate/gate.cpp: check_qubit_mask_within_bounds", "src/gate/gate_pauli.cpp: update_quantum_state"]}
{"id": "C17", "title": "Qubit lists survive construction", "statement": "A gate built from target and control lists reports exactly those qubits (sorted), with the control values in the matching order; lists with duplicates, qubits >= 64, overlapping targets and controls, wrong-length or non-binary control values are rejected.", "quantifier": "every list of qubits and control values", "why_tests_cant": "unbounded inputs", "anchors": ["include/scaluq/util/utility.hpp: vector_to_mask, mask_to_vector, resize_and_check_control_values", "src/gate/gate.cpp: GateBase ctor", "include/scaluq/gate/gate_factory.hpp"]}
{"id": "C18", "title": "Product of Pauli operators is operator composition", "statement": "Applying (P * Q) to a state equals applying Q and then P, including coefficient and the i^k phase; consequently multiplication is associative and the identity string is neutral.", "quantifier": "every pair of Pauli strings with arbitrary coefficients, every state", "why_tests_cant": "16^n pairs of strings", "anchors": ["include/scaluq/operator/pauli_operator.hpp: operator*"]}
{"id": "C19", "title": "Pauli strings round trip", "statement": "Constructing a Pauli operator from the string it prints gives back the same operator; the qubit list and id list reported by an operator rebuild it.", "quantifier": "every Pauli operator on any set of qubits below 64", "why_tests_cant": "4^64 operators", "anchors": ["src/operator/pauli_operator.cpp: string ctor, get_pauli_string, target_qubit_list, pauli_id_list", "include/scaluq/operator/pauli_operator.hpp: to_json/from_json"]}
{"id": "C20", "title": "Invalid Pauli descriptions are rejected", "statement": "Adding a single Pauli with id > 3, a qubit >= 64 or a qubit already used by a non-identity Pauli is rejected and otherwise extends the operator by exactly that factor.", "quantifier": "every construction sequence", "why_tests_cant": "unbounded sequences", "anchors": ["src/operator/pauli_operator.cpp: PauliOperator::Data::add_single_pauli"]}
{"id": "C21", "title": "get_dagger is the adjoint", "statement": "For every Pauli operator P and states a, b: <a|P b> equals the complex conjugate of <b|P.dagger a>; same for Operator.", "quantifier": "every operator and all pairs of states", "why_tests_cant": "continuous state space", "anchors": ["src/operator/pauli_operator.cpp: get_dagger", "src/operator/operator.cpp: get_dagger"]}
{"id": "C22", "title": "Pauli expectation value", "statement": "get_expectation_value(psi) of a Pauli operator equals <psi|P psi>, with P's coefficient, for every Pauli string, on registers of any size including zero qubits.", "quantifier": "every Pauli string and state", "why_tests_cant": "continuous state space, separate code paths for diagonal strings", "anchors": ["src/operator/pauli_operator.cpp: get_expectation_value"]}
{"id": "C23", "title": "Pauli transition amplitude", "statement": "get_transition_amplitude(bra, ket) equals <bra|P ket> for single states.", "quantifier": "every Pauli string, pair of states", "why_tests_cant": "continuous state space", "anchors": ["src/operator/pauli_operator.cpp: get_transition_amplitude"]}
{"id": "C24", "title": "Batched Pauli transition amplitudes equal the single-state ones", "statement": "For a batch of states, slot b of the batched transition amplitude equals the transition amplitude computed from slot b of bra and ket alone.", "quantifier": "every batch, string", "why_tests_cant": "continuous state space", "anchors": ["src/operator/pauli_operator.cpp: get_transition_amplitude (batched)"]}
{"id": "C25", "title": "Matrix of a Pauli operator represents the operator", "statement": "get_full_matrix(n) applied as a matrix equals apply_to_state, coefficient included.", "quantifier": "every Pauli string, coefficient, n", "why_tests_cant": "4^n strings", "anchors": ["src/operator/pauli_operator.cpp: get_full_matrix, get_matrix, get_full_matrix_triplets_ignoring_coef"]}
{"id": "C26", "title": "Operators act as the sum of their terms", "statement": "apply_to_state of an operator gives the sum over its terms of the term applied to the state, and get_expectation_value / get_transition_amplitude give the sums of the terms' values, on registers of every size (including n = 0).", "quantifier": "every list of terms, every state", "why_tests_cant": "unbounded term lists", "anchors": ["src/operator/operator.cpp: apply_to_state, get_expectation_value, get_transition_amplitude"]}
{"id": "C27", "title": "optimize() keeps the operator and removes duplicates", "statement": "Operator::optimize leaves the represented linear map unchanged and afterwards no two terms have the same Pauli string.", "quantifier": "every list of terms", "why_tests_cant": "unbounded term lists", "anchors": ["src/operator/operator.cpp: optimize"]}
{"id": "C28", "title": "Operator arithmetic is linear-operator arithmetic", "statement": "(A+B), (A-B), (A*B), c*A and A*P act on states as sum, difference, composition and scalar multiple of the maps A and B.", "quantifier": "every pair of operators, states", "why_tests_cant": "unbounded term lists", "anchors": ["src/operator/operator.cpp: operator+, operator*, operator*=", "include/scaluq/operator/operator.hpp"]}
{"id": "C29", "title": "is_hermitian is sound", "statement": "Whenever is_hermitian() answers true, the operator is Hermitian; operators built only from terms with real coefficients answer true.", "quantifier": "every operator reachable by construction and arithmetic", "why_tests_cant": "unbounded histories of arithmetic", "anchors": ["src/operator/operator.cpp: ctor, operator*, operator*="]}
{"id": "C30", "title": "Batched operators are arrays of operators under +, * and dagger", "statement": "Slot b of (A+B), (A*B), dagger(A) of batched operators is the sum, product, dagger of slot b of the arguments; get_operator_at(b) returns slot b; load replaces the slots and refuses another number of slots.", "quantifier": "every batch size, every (ragged) list of terms per slot", "why_tests_cant": "ragged layouts: unbounded", "anchors": ["src/operator/operator_batched.cpp: operator+, operator*, get_dagger, get_operator_at"]}
{"id": "C31", "title": "Batched operator times vector of coefficients scales slot-wise", "statement": "Multiplying a batched operator by a vector of one coefficient per slot multiplies every term of slot b by coefficient b.", "quantifier": "every batch size, every ragged term layout", "why_tests_cant": "only layouts with one term per slot show the intended result", "anchors": ["src/operator/operator_batched.cpp: operator*(coefs), operator*=(coefs)"]}
{"id": "C32", "title": "Batched operator with one Pauli per slot", "statement": "Adding or multiplying a batched operator by a vector of one Pauli operator per slot acts slot-wise and accepts exactly vectors of batch-size length.", "quantifier": "every batch size, every ragged term layout", "why_tests_cant": "unbounded layouts", "anchors": ["src/operator/operator_batched.cpp: operator+(vector<PauliOperator>), operator*(vector<PauliOperator>)"]}
{"id": "C33", "title": "Marginal and zero probabilities are the Born rule", "statement": "get_zero_probability(q) and get_marginal_probability(pattern) return the sum of squared moduli of exactly those amplitudes whose index matches; for a normalised state marginals over all outcomes of the specified qubits add to 1 and every value lies in [0,1]; malformed patterns are rejected.", "quantifier": "every state, qubit and measurement pattern", "why_tests_cant": "3^n patterns, continuous states", "anchors": ["src/state/state_vector.cpp: get_zero_probability, get_marginal_probability"]}
{"id": "C34", "title": "Sampling returns only possible outcomes, by inverse CDF", "statement": "Every sampled index is a valid basis index x with CDF(x) <= r < CDF(x+1) for the uniform draw r, hence has non-zero probability and the set of draws producing x has measure |psi_x|^2.", "quantifier": "every normalised state, every sequence of draws", "why_tests_cant": "randomised; rare boundary draws are not hit in tests", "anchors": ["src/state/state_vector.cpp: sampling"]}
{"id": "C35", "title": "Measurement collapses to the observed outcome and records it", "statement": "A measurement gate stores the outcome bit in the addressed classical bit and no other bit changes; afterwards all amplitudes inconsistent with the outcome are zero and the rest are the old ones divided by the square root of the outcome's probability; with reset the qubit ends in |0>.", "quantifier": "every state, target, draw, register", "why_tests_cant": "continuous states, random draws", "anchors": ["src/gate/gate_measurement.cpp", "include/scaluq/classical_register.hpp"]}
{"id": "C36", "title": "A probabilistic gate selects gate k with its probability, nested or not", "statement": "For a uniform draw r the selected component is the one whose cumulative interval contains r; nesting probabilistic gates is equivalent to multiplying the probabilities; malformed distributions are rejected.", "quantifier": "every distribution, nesting depth, draw", "why_tests_cant": "random, boundary draws", "anchors": ["src/gate/gate_probabilistic.cpp", "include/scaluq/gate/gate_probabilistic.hpp"]}
{"id": "C37", "title": "Noise channels are probability distributions over the documented Paulis", "statement": "BitFlipNoise, DephasingNoise, BitFlipAndDephasingNoise and DepolarizingNoise with error rate in [0,1] build valid distributions whose components have exactly the documented probabilities.", "quantifier": "every error rate in [0,1], every target", "why_tests_cant": "continuous parameter", "anchors": ["include/scaluq/gate/gate_factory.hpp: BitFlipNoise, DephasingNoise, BitFlipAndDephasingNoise, DepolarizingNoise"]}
{"id": "C38", "title": "A circuit is the in-order composition of its gates", "statement": "Updating a state by a circuit applies its gates one after another in insertion order; appending circuit B to circuit A gives a circuit that acts as A then B.", "quantifier": "every circuit and state", "why_tests_cant": "unbounded circuits", "anchors": ["src/circuit/circuit.cpp: update_quantum_state, add_circuit"]}
{"id": "C39", "title": "Circuit inverse undoes the circuit", "statement": "If get_inverse succeeds, circuit followed by its inverse (with the same parameters) restores every state.", "quantifier": "every circuit, parameter assignment and state", "why_tests_cant": "unbounded circuits", "anchors": ["src/circuit/circuit.cpp: get_inverse"]}
{"id": "C40", "title": "Circuit optimisation preserves the action of the circuit", "statement": "After optimize(block_size) the circuit acts on every state exactly as before, for every block size.", "quantifier": "every circuit and block size", "why_tests_cant": "unbounded circuits; failure needs particular gate patterns", "anchors": ["src/circuit/circuit.cpp: optimize", "src/gate/merge_gate.cpp"]}
{"id": "C41", "title": "merge_gate returns the composition up to the returned global phase", "statement": "merge_gate(g1, g2) returns (g, phase) such that e^{i phase} g acts as g1 followed by g2 on every state.", "quantifier": "every pair of gates (all special-case pairs and the general case), all angles and control sets", "why_tests_cant": "quadratically many special cases times continuous angles", "anchors": ["src/gate/merge_gate.cpp"]}
{"id": "C42", "title": "Circuit depth is the length of the longest chain of gates sharing qubits", "statement": "calculate_depth returns the maximum length of a sequence of gates, in circuit order, where consecutive members share a qubit; it never exceeds the number of gates.", "quantifier": "every circuit", "why_tests_cant": "unbounded circuits", "anchors": ["src/circuit/circuit.cpp: calculate_depth"]}
{"id": "C43", "title": "Missing parameters are reported before anything changes", "statement": "update_quantum_state on a circuit with a parameter key that is not supplied raises an error and leaves the state as it was; extra parameters are harmless.", "quantifier": "every circuit, parameter map and state", "why_tests_cant": "unbounded circuits", "anchors": ["src/circuit/circuit.cpp: update_quantum_state", "key_set"]}
{"id": "C44", "title": "Conditional gates run exactly when their classical condition holds", "statement": "A conditional gate in a circuit is applied iff the classical register matches the recorded condition at that point of the run; the batched run of a circuit treats each batch slot as the single-state run would.", "quantifier": "every circuit with measurements and conditions, every outcome sequence", "why_tests_cant": "branching histories grow exponentially", "anchors": ["src/circuit/circuit.cpp: update_quantum_state", "include/scaluq/circuit/circuit.hpp"]}
{"id": "C45", "title": "simulate_noise conserves shots and follows the circuit", "statement": "simulate_noise(state, shots, params, seed) returns a list of (state, count) whose counts add up to the number of shots, and each returned state is obtained by running the circuit with one concrete choice for every probabilistic gate.", "quantifier": "every circuit, shot count, random draw sequence", "why_tests_cant": "randomised tree of executions", "anchors": ["src/circuit/circuit.cpp: simulate_noise"]}
{"id": "C46", "title": "Backpropagated gradients are the derivatives", "statement": "backprop returns, for each parameter key, the derivative of the expectation value of the observable with respect to that parameter.", "quantifier": "every circuit of parametric rotations, observable and parameter point", "why_tests_cant": "continuous parameters; controlled parametric gates are a separate case", "anchors": ["src/circuit/circuit.cpp: backprop", "src/gate/param_gate_standard.cpp"]}
{"id": "C47", "title": "JSON round trip of gates and circuits", "statement": "Serialising a gate or unconditional circuit to JSON and reading it back gives an equivalent gate or circuit.", "quantifier": "every gate kind and operand list, every circuit", "why_tests_cant": "unbounded structures", "anchors": ["include/scaluq/gate/gate.hpp: from_json", "include/scaluq/circuit/circuit.hpp: to_json/from_json"]}
{"id": "C48", "title": "OpenQASM export then import reproduces the circuit", "statement": "If dumps(circuit) succeeds, loads(dumps(circuit)) acts as the original circuit on every state and classical register; unsupported constructs are refused rather than silently dropped.", "quantifier": "every circuit", "why_tests_cant": "unbounded circuits", "anchors": ["src/qasm/qasm2.cpp"]}
{"id": "C49", "title": "OpenQASM registers never alias", "statement": "After importing a program, two operands naming different (register, index) pairs denote different flat qubit indices, all below the reported qubit count.", "quantifier": "every program", "why_tests_cant": "unbounded programs, 64-bit wrap-around", "anchors": ["src/qasm/qasm2.cpp: Reader::handle_statement, parse_indexed_register"]}
{"id": "C50", "title": "Density-matrix gates conjugate the state", "statement": "Applying a gate U with controls to a density matrix rho gives U rho U^dagger, so a pure state |psi><psi| becomes |U psi><U psi| with U psi computed by the state-vector backend.", "quantifier": "every standard gate, all angles, target/control placements, every matrix rho", "why_tests_cant": "separate kernels with special cases for 0, 1 and several controls", "anchors": ["src/gate/update_ops_dm_standard.cpp"]}
{"id": "C51", "title": "Density-matrix trace and partial trace", "statement": "Unitary gates keep the trace; get_partial_trace(qubits) is the sum over the traced qubits' basis values of the corresponding matrix elements and has the same trace.", "quantifier": "every density matrix, traced qubit set", "why_tests_cant": "2^n subsets, continuous matrices", "anchors": ["src/state/density_matrix.cpp: get_partial_trace, get_trace", "src/gate/update_ops_dm_standard.cpp"]}
{"id": "C52", "title": "The Hermitian flag of a density matrix is sound", "statement": "If is_hermitian() answers true then the stored matrix equals its conjugate transpose, after every history of setter calls and updates.", "quantifier": "every call history", "why_tests_cant": "unbounded histories", "anchors": ["src/state/density_matrix.cpp: set_coherence_at, set_coherence_pair_at"]}
{"id": "C53", "title": "Random permutation is a permutation", "statement": "Random::permutation(n) returns a rearrangement of 0..n-1 whatever the random numbers are, and every rearrangement is reachable.", "quantifier": "every n and every stream of random numbers", "why_tests_cant": "n! outcomes", "anchors": ["include/scaluq/util/random.hpp: permutation"]}
{"id": "C54", "title": "Expanded matrices are the controlled operator on more qubits", "statement": "The helper that enlarges a gate matrix to a larger ordered qubit set with controls returns the matrix of the controlled operator on that set.", "quantifier": "every matrix, target list, control list and enclosing list", "why_tests_cant": "writes overlap and the result depends on write order", "anchors": ["src/base/util/utility.cpp: get_expanded_matrix"]}
{"id": "C55", "title": "Values and applied states of batched operators are slot-wise", "statement": "get_expectation_value, get_transition_amplitude and get_applied_states of a batched operator return, slot by slot, the values and states of the operators in the slots.", "quantifier": "every batch size, every ragged list of terms per slot, every state, every schedule of the parallel kernels", "why_tests_cant": "unbounded layouts and states; a data race shows up only under some schedules", "anchors": ["src/operator/operator_batched.cpp: get_expectation_value, get_transition_amplitude, get_applied_states", "include/scaluq/operator/apply_pauli.hpp: apply_pauli (row_ptr)"]}
{"id": "C56", "title": "State-vector arithmetic is the linear algebra it says, safely", "statement": "get_squared_norm and inner_product return the sums over all amplitudes (inner_product of different sizes throws); normalize gives the proportional state of norm 1; multiply_coef, add_state_vector_with_coef, set_computational_basis and set_zero_norm_state change every amplitude exactly as documented, under every thread schedule, without touching memory outside the state.", "quantifier": "every state, coefficient, size and schedule", "why_tests_cant": "continuous amplitudes, schedules, mismatched sizes", "anchors": ["src/state/state_vector.cpp", "src/state/state_vector_batched.cpp"]}
{"id": "C57", "title": "Entropy is the Shannon entropy of the outcome distribution", "statement": "get_computational_basis_entropy returns the sum of -p log2 p over the outcomes of non-zero probability, for single states and for every slot of a batch.", "quantifier": "every state", "why_tests_cant": "continuous amplitudes; tests compare with a tolerance", "anchors": ["src/state/state_vector.cpp: get_computational_basis_entropy", "src/state/state_vector_batched.cpp: get_computational_basis_entropy"]}
{"id": "C58", "title": "Density-matrix read-outs are the Born-rule quantities", "statement": "On a matrix flagged Hermitian, get_zero_probability, get_marginal_probability, get_computational_basis_entropy and sampling are determined by the diagonal exactly as the state-vector read-outs are by the squared moduli, and get_purity is the trace of the squared matrix; on the projector of a state vector they return what the state vector returns. Without the flag, or with a qubit outside the register or a malformed pattern, they throw.", "quantifier": "every matrix, qubit, pattern and sequence of uniform numbers", "why_tests_cant": "continuous matrix entries and all patterns; tests compare a few random pure states with a tolerance", "anchors": ["src/state/density_matrix.cpp: get_purity, get_zero_probability, get_marginal_probability, sampling, get_computational_basis_entropy"]}
{"id": "C59", "title": "Density-matrix setters, loads and arithmetic store exactly the documented matrix", "statement": "set_zero_state, set_zero_norm_state, set_computational_basis, set_coherence_at, the loads, add_density_matrix_with_coef, multiply_coef and normalize leave exactly the documented elements (normalize gives trace 1 whenever the trace is not 0), read every index in range, never race, and otherwise throw without changing anything.", "quantifier": "every matrix, index, coefficient and execution order of the device", "why_tests_cant": "all matrices and all interleavings", "anchors": ["src/state/density_matrix.cpp"]}
{"id": "C60", "title": "Importing OpenQASM never has undefined behaviour", "statement": "qasm2::loads on an arbitrary text returns a circuit or throws; in particular the recursive angle parser always terminates, no index leaves a string or register, and no factory called by the reader shifts out of range.", "quantifier": "every text", "why_tests_cant": "unbounded texts; recursion and index arithmetic on arbitrary bytes", "anchors": ["src/qasm/qasm2.cpp: loads, Reader, AngleExpressionParser"]}
{"id": "C61", "title": "JSON round trip of operators and states", "statement": "Writing a PauliOperator, Operator, OperatorBatched, StateVector, StateVectorBatched or DensityMatrix as JSON and reading it back gives an object with the same terms, amplitudes, matrix elements, sizes and Hermitian flag.", "quantifier": "every operator, every state of any size", "why_tests_cant": "unbounded term lists and state sizes; all coefficients", "anchors": ["include/scaluq/operator/operator.hpp: to_json/from_json", "include/scaluq/operator/operator_batched.hpp", "include/scaluq/state/state_vector.hpp", "include/scaluq/state/state_vector_batched.hpp", "include/scaluq/state/density_matrix.hpp"]}
{"id": "C62", "title": "Reading arbitrary JSON throws or gives a well-formed object", "statement": "Reading an arbitrary JSON value as a gate, parametric gate, circuit, operator or state either throws an exception or returns an object the ordinary constructors and factory functions can make; it never has undefined behaviour.", "quantifier": "every JSON value", "why_tests_cant": "unbounded, adversarial inputs", "anchors": ["include/scaluq/gate/gate.hpp: from_json", "src/gate/gate_standard.cpp: get_from_json", "include/scaluq/types.hpp: adl_serializer", "include/scaluq/state/state_vector.hpp: from_json"]}
{"id": "C63", "title": "An OpenQASM 2.0 text is read with its OpenQASM 2.0 meaning", "statement": "For every OpenQASM 2.0 text over the supported statements (version, include of qelib1.inc, qreg, creg, barrier, measure, the gates of qelib1.inc), with arbitrary white space, upper and lower case of keywords and gate names, angle expressions with the usual precedence, comments (which count as white space) and any number of registers, loads returns the circuit the text means: the gates and measurements in order, on the qubits and bits the register elements stand for, with the declared numbers of qubits and bits and the documented warnings; if the program has no meaning (unknown register or gate, wrong number of operands or angles, equal operands, index out of range, division by zero, registers of different size, refused statement) it throws an exception.", "quantifier": "every text of the grammar, every correct strtod", "why_tests_cant": "unbounded programs, layouts, nesting of expressions and comments", "anchors": ["src/qasm/qasm2.cpp: loads, split_statements, handle_statement, parse_gate, parse_measure, AngleParser, parse_indexed_register"]}
{"id": "C64", "title": "The power method returns a normalised state whose energy decreases to the ground energy", "statement": "For a Hermitian operator A and a shift mu above its energies, solve_ground_state_by_power_method(psi, k, mu) returns, for k >= 1, the normalised state proportional to (A - mu)^k psi together with its energy, under every schedule of the kernels. The energy is real, never below the smallest eigenvalue, not above the energy after fewer iterations, and converges to the smallest eigenvalue as k grows whenever psi has a component in the ground space; an explicit bound in terms of the overlap holds for every k. The default mu (the sum of the absolute values of the coefficients) is such a shift.", "quantifier": "all operators, numbers of qubits from 1 to 63, initial states, iteration counts, shifts and kernel schedules", "why_tests_cant": "The tests compare two small operators with a dense eigensolver after a fixed number of iterations and a random initial state; they cannot establish monotonicity, the convergence for all operators and initial states, nor find the initial states for which the division by the norm fails.", "anchors": ["/repo/src/operator/operator.cpp:447-490", "/repo/include/scaluq/operator/operator.hpp"]}
{"id": "C65", "title": "The Arnoldi method returns the state of least energy in the Krylov space", "statement": "For a Hermitian operator A, an initial state psi, k >= 1 iterations and any shift, solve_ground_state_by_arnoldi_method returns a normalised state g in the span of psi, A psi, ..., A^(k-1) psi together with its energy, and no state of that span has a lower energy; in particular the value is never below the smallest eigenvalue nor above the value of k-1 iterations of the power method, and it is exactly the smallest eigenvalue reachable from psi once the span is invariant under A.", "quantifier": "all operators, numbers of qubits up to 63, initial states, iteration counts, shifts, kernel schedules, and all correct eigenvalue solvers", "why_tests_cant": "The tests run a fixed iteration count on random small operators, with more iterations than dimensions so that rounding hides the division by zero; minimality over the whole Krylov space for every operator and state cannot be sampled.", "anchors": ["/repo/src/operator/operator.cpp:492-556"]}
{"id": "C66", "title": "A rotation by an observable applies its exponential", "statement": "Circuit::add_observable_rotation_gate(H, angle, r) throws if H is not Hermitian or r <= 0. Otherwise running the circuit afterwards is running it as before and then applying exp(-i angle/2 H): exactly if the terms of H commute, and in general with an error of norm at most (angle * sum of |coefficients|)^2 / (2 r) times the norm of the state, which vanishes as r grows.", "quantifier": "all observables, angles, repetition counts, circuits before the call, register sizes up to 63 qubits, states and kernel schedules", "why_tests_cant": "The tests compare one small observable with a dense matrix exponential at a loose tolerance; an error bound in the number of repetitions for every observable and state cannot be sampled, nor does a sample find the coefficients for which the angle threshold drops a large rotation.", "anchors": ["/repo/include/scaluq/circuit/circuit.hpp:101-122", "/repo/src/gate/gate_pauli.cpp:63-75"]}
{"id": "C67", "title": "Rounding errors of gates and circuits are bounded", "statement": "In floating-point arithmetic with unit roundoff u, underflow threshold eta and errors w of cos and sin, updating a state by a gate whose matrix elements are at most one and whose angles are at most 32 gives amplitudes whose distance (Euclidean norm) from the exact result is at most 256 t^2 (eps |psi| + eta sqrt(dim)), where eps bounds the errors of the coefficients and t is 1 for all kernels but the sparse and multi-target matrix kernels, where it is the number of summed terms; no intermediate value overflows. The error of a circuit of k unitary gates on a normalised state is at most k times this bound for a norm of two, and the norm of the state stays that close to one.", "quantifier": "all gates of the library with coefficients in the stated range, all circuits of unitary gates, qubit counts up to 63, batch sizes, states, schedules, SIMD widths, and all number types that meet the standard model of floating-point arithmetic", "why_tests_cant": "The tests compare with Eigen results at fixed tolerances on small random circuits; that errors grow at most linearly with the number of gates and independently of the number of qubits, for every state and precision, cannot be sampled.", "anchors": ["/repo/src/gate/update_ops_matrix.cpp", "/repo/src/gate/update_ops_standard.cpp", "/repo/include/scaluq/operator/apply_pauli.hpp", "/repo/src/circuit/circuit.cpp:76-141"]}
{"id": "C68", "title": "Vectorised and scalar kernels give the same amplitudes bit for bit", "statement": "For every gate and every circuit of gates, a build with SIMD kernels of any register width and a build without produce exactly the same floating-point amplitudes from the same initial state, provided the compiler does not contract products and sums.", "quantifier": "all gates and circuits, qubit counts up to 63, batch sizes, initial amplitudes (normalised or not), SIMD widths, schedules, and all number types in which subtraction is addition of the negative and sign and commutativity laws hold exactly, as in IEEE 754", "why_tests_cant": "One build has one SIMD width; the tests of a build compare with a tolerance, and no test compares two builds. Equality bit for bit for all amplitudes cannot be sampled.", "anchors": ["/repo/src/gate/update_ops_matrix.cpp", "/repo/src/gate/update_ops_standard.cpp"]}
{"id": "C69", "title": "Gate updates are reproducible bit for bit under every schedule", "statement": "In any arithmetic, with rounding, overflow and not-a-number included, the update of a state by a gate or a circuit of gates ends with the same amplitudes bit for bit under every schedule of the parallel kernels: no amplitude depends on the order in which threads run.", "quantifier": "all gates and circuits of gates, qubit counts up to 63, batch sizes, initial amplitudes, SIMD widths, schedules, and all number types with any operations", "why_tests_cant": "A test runs one schedule per run and compares with a tolerance; it can neither enumerate the schedules nor notice differences in the last bit.", "anchors": ["/repo/src/gate/update_ops_matrix.cpp", "/repo/src/gate/update_ops_standard.cpp", "/repo/include/scaluq/operator/apply_pauli.hpp"]}
{"id": "C70", "title": "Which state objects share amplitudes", "statement": "Programs that create, copy, view, assign and update StateVector and StateVectorBatched objects behave as if every object denoted cells of amplitudes without addresses: a constructor, copy(), get_state_vector_at and get_reduced_state make new cells; a C++ copy denotes the same cells; view_state_vector_at(b) denotes row b of the batch, so that every later change of either is seen by both until one of them is assigned; an update writes the cells of its object and nothing else. In particular new objects are independent of all others, no schedule, row padding or garbage in new allocations can be observed, and no program accesses memory out of range.", "quantifier": "all programs of the 26 state operations and gate updates, numbers of qubits, batch sizes, gates, row alignments, contents of uninitialised memory, SIMD widths and schedules", "why_tests_cant": "Aliasing shows only in long programs that combine views, copies and updates in particular orders; there are infinitely many, and reads of uninitialised or padded memory may return the expected values in a test.", "anchors": ["/repo/src/state/state_vector.cpp", "/repo/src/state/state_vector_batched.cpp", "/repo/include/scaluq/state/state_vector.hpp", "/repo/include/scaluq/state/state_vector_batched.hpp", "/repo/src/gate/update_ops_matrix.cpp"]}
{"id": "C71", "title": "Pauli strings are read according to their grammar", "statement": "PauliOperator(text, coef) accepts exactly the texts that consist of words, each a letter I, X, Y or Z in either case followed by a decimal number below 2^64, with white space anywhere between letters and numbers, such that the letters other than I stand on different qubits numbered 0 to 63; the operator is coef times the product of the letters on their qubits. Every other text is refused with an exception.", "quantifier": "all texts and coefficients", "why_tests_cant": "There are infinitely many texts; stream extraction has corner cases (signs, missing spaces, leading zeros, wrap-around of negative numbers) that a list of examples does not exhaust.", "anchors": ["/repo/src/operator/pauli_operator.cpp"]}
{"id": "C72", "title": "Norms, probabilities, inner products and expectation values are accurate in floating point, whatever the order of the parallel additions", "statement": "In floating-point arithmetic with unit roundoff u, get_squared_norm, get_zero_probability, get_marginal_probability, inner_product and Operator::get_expectation_value return, for every order and grouping in which a parallel reduction adds the contributions of its work items, a value whose distance from the exact value is at most ((1+u)^(N+1) - 1) times the sum of the magnitudes of the N contributions plus an underflow term (for expectation values of T terms with N work items each: ((1+u)^(TN+7) - 1) times the sum of the coefficient magnitudes times the squared norm). Following a circuit of k unitary gates the computed probability or expectation value differs from the exact one of the exact circuit by at most that bound plus 3kE (times the sum of the coefficient magnitudes), E the error bound of one gate. Invalid arguments throw. The values are not reproducible bit for bit: there is a state for which two orders of the additions give different norms.", "quantifier": "all number types that meet the standard model of rounding, all states with amplitudes of magnitude at most 4, all operators with coefficients of magnitude at most 32, all orders of the additions, all circuits of unitary gates", "why_tests_cant": "Tests compare with a tolerance on a few states on one machine with one number of threads; the bound covers every state and every order in which the threads may add.", "anchors": ["/repo/src/state/state_vector.cpp", "/repo/src/operator/operator.cpp", "/repo/include/scaluq/util/utility.hpp", "/repo/include/scaluq/type/complex.hpp"]}
{"id": "C73", "title": "Random permutations are nearly uniform", "statement": "If the 64-bit random engine delivers independent, uniformly distributed numbers, Random::permutation(n) returns each of the n! rearrangements with a probability between (1-1/2^32)(1-2/2^32)...(1-n/2^32)/n! and (1+1/2^32)(1+2/2^32)...(1+n/2^32)/n!; up to 65535 elements the relative deviation from 1/n! is at most n(n+1)/2^32. The distribution is not exactly uniform: for n = 2 the identity is returned with probability less than 1/2.", "quantifier": "all n up to 2^31, all rearrangements", "why_tests_cant": "The number of rearrangements grows like n!, and deviations of the order 2^-32 are invisible in any sample of practical size.", "anchors": ["/repo/include/scaluq/util/random.hpp"]}
{"id": "C74", "title": "On average over the random numbers, circuits evolve mixed states as quantum mechanics prescribes", "statement": "Let the numbers delivered by the random source be independent and uniformly distributed in [0,1). For a circuit of unitary gates, probabilistic gates whose probabilities add up to 1, measurements (with or without reset) and gates conditioned on the classical register, in which no gate touches a qubit measured earlier without reset, applied to a normalised state: almost surely the run completes; the average of the products of final amplitudes psi_i conj(psi_j), restricted to the runs that end with register r, is the sum over the branches of the circuit (Kraus operators sqrt(p_k) U_k of the probabilistic gates, projections of the measurements, conditions decided by the register of the branch) that end with register r; the probability of register r is the squared norm of these branches; the average expectation value of an observable is the sum over the branches. In particular a single measurement finds b with the probability of the Born rule, and a probabilistic gate acts as the channel rho -> sum p_k U_k rho U_k^dagger.", "quantifier": "all circuits of this kind, all normalised states with fewer than 64 qubits, all registers, all parameter values, all observables", "why_tests_cant": "Tests of random behaviour compare frequencies of a few seeds with a wide tolerance; the theorem gives the exact distribution for every circuit.", "anchors": ["/repo/src/circuit/circuit.cpp", "/repo/src/gate/gate_measurement.cpp", "/repo/src/gate/gate_probabilistic.cpp", "/repo/include/scaluq/util/random.hpp"]}
{"id": "C75", "title": "Samples are independent and follow the Born rule", "statement": "If the numbers drawn by the random pool are independent and uniformly distributed in [0,1), StateVector::sampling(count) applied to a state other than zero returns almost surely, and the loop that draws rejected samples again does not distort the distribution: for a state of norm at most 1 a given list (k_1, ..., k_count) is returned with probability (|psi_k1|^2 / |psi|^2) ... (|psi_kcount|^2 / |psi|^2). For any other state the cumulative distribution is cut off at 1. StateVectorBatched::sampling draws the samples of all slots independently from the distributions of the slots. DensityMatrix::sampling returns a given list with the product of the diagonal elements divided by the trace, for a positive diagonal and a trace of at most 1.", "quantifier": "all states other than zero with at most 63 qubits, all counts, all lists of basis indices, all batches", "why_tests_cant": "Tests compare frequencies of one seed with a tolerance; joint distributions of long lists cannot be estimated from samples.", "anchors": ["/repo/src/state/state_vector.cpp", "/repo/src/state/state_vector_batched.cpp", "/repo/src/state/density_matrix.cpp"]}
{"id": "C76", "title": "Sampling in floating-point arithmetic", "statement": "With rounded arithmetic, whatever order of additions the parallel scan uses and whatever table of cumulative sums it leaves, StateVector::sampling, StateVectorBatched::sampling and DensityMatrix::sampling return only valid indices, return almost surely, and the samples are independent with one distribution q for which |q_k - p_k| is at most 7 (error of the sums + error of the conversion + deviation of the norm from 1), p_k being the Born probability; after a circuit of unitary gates the rounding errors of the gates add at most a multiple of the number of gates. On the host back ends an index whose amplitude is exactly zero is not returned unless its work item is the first one of a thread after the second; in that case it can be returned.", "quantifier": "all arithmetics with bounded relative error and exact addition of zero, all groupings of the scan, all states with amplitudes at most 4 and squared norm close to 1, all counts and result lists, all independent uniform draws", "why_tests_cant": "The table depends on the number of threads; the deviations are of the size of the rounding errors and cannot be seen in frequencies; the events with wrong indices have probabilities around 1e-16.", "anchors": ["/repo/src/state/state_vector.cpp", "/repo/src/state/state_vector_batched.cpp", "/repo/src/state/density_matrix.cpp"]}
{"id": "C77", "title": "The statistics of noisy simulation", "statement": "If the numbers drawn by std::discrete_distribution are independent and follow its weights, Circuit::simulate_noise(state, shots) returns a list for almost all draws, although it merges shots that took the same choices and hands the draws to the merged groups in an order that depends on earlier draws: the states of the shots are jointly distributed like those of independent shots, each of which chooses at every gate one alternative with its weight divided by the sum of the weights. Hence the sum over the result of any quantity of the states, weighted with the counts, is on average shots times its mean over all paths; the mean over the shots has the variance of one shot divided by shots; the number of shots ending in states with a given property is binomially distributed; and if gates are unitary and probabilities add up to 1 the averaged density matrix is the one of Circuit::update_quantum_state without conditions.", "quantifier": "all circuits without measurements, all parameters, numbers of shots, initial states with at most 63 qubits, all functions of the shots that do not depend on their order", "why_tests_cant": "A wrong assignment of draws to groups keeps all counts plausible and only correlates choices at different gates; tests compare a few frequencies with a tolerance.", "anchors": ["/repo/src/circuit/circuit.cpp"]}
{"id": "C78", "title": "Haar random states", "statement": "If the numbers drawn by normal(0, 1) are independent and normally distributed, StateVector::Haar_random_state and set_Haar_random_state return with probability one, leave a state of norm 1 that does not depend on the schedule or on the previous contents, and this state is Haar distributed: no unitary transformation changes its distribution, in particular no circuit of unitary gates; there is only one distribution of unit vectors with this property. On average over many such states |psi><psi| is the identity divided by 2^n. StateVectorBatched::Haar_random_state gives independent Haar random states in its slots, or one and the same Haar random state in every slot with set_same_state; DensityMatrix::set_Haar_random_state stores the projector on a Haar random state, flagged Hermitian.", "quantifier": "all numbers of qubits up to 63 (31 for density matrices), all batch sizes, all probability spaces with independent standard normal numbers, all schedules, all previous contents", "why_tests_cant": "Tests check the norm of one random state or averages with a tolerance; a wrong distribution of the amplitudes (uniform instead of normal numbers, one number for both parts, the same numbers in every slot) passes them.", "anchors": ["/repo/src/state/state_vector.cpp", "/repo/src/state/state_vector_batched.cpp", "/repo/src/state/density_matrix.cpp"]}
{"id": "C79", "title": "The average effect of the noise gates", "statement": "Let gates made by BitFlipNoise, DephasingNoise, BitFlipAndDephasingNoise or DepolarizingNoise with error rate p in [0, 1] be added m times with add_gate to a circuit (of gates, random choices, measurements and conditions), on a qubit that the circuit did not measure without reset. Averaged over independent uniform random numbers and separately for every contents of the classical register, the density matrix of the final states changes by the textbook channel of that kind of noise: bit flip rho -> (1-p')rho + p' X rho X, dephasing reduces coherences by 1-2p', both independently, depolarizing rho -> (1-4p'/3) rho + (4p'/3) (qubit replaced by the maximally mixed state), with 1-2p' = (1-2p)^m, for depolarizing 1-4p'/3 = (1-4p/3)^m. The average of a Pauli observable is multiplied by the m-th power of a number that depends only on the kind of noise and on its letter on the qubit; sums of Pauli operators term by term. With depolarizing noise of positive rate the qubit tends to the maximally mixed state.", "quantifier": "all circuits, parameters, initial normalised states with at most 63 qubits, all error rates in [0, 1], all numbers of noise gates, all Pauli observables", "why_tests_cant": "Tests compare the frequencies of a few runs with a tolerance; a wrong probability of one of the four Pauli errors or a swapped gate changes averages slightly and only for some observables.", "anchors": ["/repo/include/scaluq/gate/gate_factory.hpp", "/repo/src/gate/gate_probabilistic.cpp", "/repo/src/circuit/circuit.cpp"]}
{"id": "C80", "title": "Texts written by to_string", "statement": "to_string of a state writes the number of qubits, the dimension and one line per amplitude in the order of the basis states, labelled by the bits of the basis state with qubit 0 last; the text determines the number of qubits and the printed form of every amplitude. Batched states show every state under its number, density matrices the elements row by row, a Pauli operator its coefficient and letters that the constructor from a string reads back, an operator one line per term in order (batched: one block per slot). to_string of a gate begins with the type and lists parameters, target qubits, control qubits and control values as reported by the getters; different gates have different texts as far as the printed numbers differ (matrices are not shown). Measurements show classical bit and reset flag; a probabilistic gate shows the probability and the indented text of every alternative in order.", "quantifier": "all states up to 63 qubits, all operators, all gates of all factories with all arguments, all indentations without line break, all number printers that write digits, letters, points and signs", "why_tests_cant": "Tests compare the text of a few objects; gates with several controls, other control values or nested in probabilistic gates are not covered, and no test can show that two different objects never have the same text.", "anchors": ["/repo/src/state/state_vector.cpp", "/repo/src/state/state_vector_batched.cpp", "/repo/src/state/density_matrix.cpp", "/repo/src/operator/operator.cpp", "/repo/src/gate/gate.cpp", "/repo/src/gate/gate_standard.cpp", "/repo/src/gate/gate_pauli.cpp", "/repo/src/gate/gate_probabilistic.cpp", "/repo/src/gate/param_gate.cpp"]}
{"id": "C81", "title": "Gate handles know the kind of their gate", "statement": "A Gate or ParamGate handle reports with gate_type() the kind of the gate object it holds, however it was obtained (factories, JSON, get_inverse, conversions). Conversions keep the object: to the general handle they always succeed, to a handle of a class they succeed exactly if the object is of this class and throw otherwise; using an empty handle throws. Hence circuits assembled from such gates by add_gate, add_circuit, get_inverse and optimize treat every gate by its kind: update_quantum_state (with and without register, batched), optimize, simulate_noise, compute_expectation_gradient and the OpenQASM export do what the gate objects demand.", "quantifier": "all gate classes and execution spaces, all sequences of constructions and conversions, all circuits assembled by these operations, all states, parameters, random numbers", "why_tests_cant": "Tests call these functions on freshly made circuits; whether the kind survives every sequence of conversions, inverses and joins is a statement about all histories of a handle, and a lost kind silently selects another branch.", "anchors": ["/repo/include/scaluq/gate/gate.hpp", "/repo/include/scaluq/gate/param_gate.hpp", "/repo/src/circuit/circuit.cpp", "/repo/src/gate/merge_gate.cpp", "/repo/src/gate/gate_probabilistic.cpp", "/repo/src/qasm/qasm2.cpp"]}
{"id": "C82", "title": "Gates act as their matrices on states of any size", "statement": "Every gate made by a factory acts on a state vector, or on every state of a batch, as the operator of its matrix on its targets where the controls hold, also for states so large that the number of groups of amplitudes that the gate treats independently exceeds the range of 32-bit integers.", "quantifier": "all gate classes, operands, matrices, numbers of qubits below 64 and batch sizes with at most 2^64 amplitudes, all states, all schedules", "why_tests_cant": "Such states have at least 2^34 amplitudes (256 GiB in double precision); no test allocates them. The failure is a conversion of a 64-bit count to the int of a Kokkos team policy, which no smaller state exercises.", "anchors": ["/repo/src/gate/update_ops_matrix.cpp", "/repo/src/gate/gate_matrix.cpp"]}
{"id": "C83", "title": "Gates and circuits meet states of their own execution space only", "statement": "On states of the execution space for which its DenseMatrix and SparseMatrix gates were made, a circuit has the same effect in every space (single states and batches); a circuit without matrix gates runs on states of every space. A matrix gate applied to a state of another space throws and changes neither state nor classical register, also on batches and as the chosen alternative of a probabilistic gate; a circuit stops there, having applied exactly the earlier gates. An update that finishes has used no gate of another space. get_inverse and add_circuit keep the space of every gate.", "quantifier": "all execution spaces, all circuits with fixed, parametric, random, measured and conditional entries, all states, parameters and random numbers", "why_tests_cant": "Tests run circuits whose gates were all made for the tested space; combinations of spaces inside nested and conditional gates and histories of inverses and joins are unbounded.", "anchors": ["/repo/src/gate/gate_matrix.cpp", "/repo/src/circuit/circuit.cpp", "/repo/include/scaluq/gate/gate_factory.hpp"]}
{"id": "C84", "title": "Entropies in floating point, whatever the order of the additions", "statement": "get_computational_basis_entropy of a state, of every slot of a batch and of a density matrix returns, in an arithmetic with rounding error u and a logarithm with relative error l and for every order in which the threads add, a number within an explicit error bound of the Shannon entropy of the outcome distribution; it is never NaN for states whose amplitudes are finite.", "quantifier": "every floating point format satisfying the standard rounding model, every state, every order of the reduction", "why_tests_cant": "tests run one precision and one number of threads on random states; small and vanishing probabilities and half precision are not covered", "anchors": ["src/state/state_vector.cpp:191-205", "src/state/state_vector_batched.cpp:391-419", "src/state/density_matrix.cpp:448-467", "include/scaluq/util/math.hpp"]}
{"id": "C85", "title": "Operator and OperatorBatched objects share terms exactly when they should", "statement": "In a program that constructs, assigns, copies, loads, optimises and combines named Operator and OperatorBatched objects and takes views of slots: a copy constructor, an assignment or operator+() makes two objects share their terms; copy(), arithmetic, get_dagger, optimize, get_operator_at and the batch constructors give independent objects; view_operator_at shares the terms of the slot and stays coupled until one of the two is assigned or loaded; load and *= change the terms in place for all sharing objects; a refused command changes nothing; no array is accessed out of range.", "quantifier": "every finite sequence of such commands on any number of objects, any terms", "why_tests_cant": "aliasing bugs need particular sequences of commands; the tests use each operation on fresh objects", "anchors": ["src/operator/operator.cpp:7-75", "src/operator/operator.cpp:557-650", "src/operator/operator_batched.cpp:8-38", "src/operator/operator_batched.cpp:350-376", "include/scaluq/operator/operator.hpp:82-88"]}
{"id": "C86", "title": "The OpenQASM reader accepts only OpenQASM programs", "statement": "If qasm2::loads reads a text without exception, the text is an OpenQASM 2.0 program (statements separated by semicolons, with comments inserted) and the returned circuit, the numbers of qubits and classical bits and the warnings are the ones that program means; no part of the text is skipped or guessed.", "quantifier": "every text, every strtod that never reads beyond the end of its argument", "why_tests_cant": "the tests reject a handful of wrong texts; the claim is about all texts that are accepted", "anchors": ["src/qasm/qasm2.cpp:116-121", "src/qasm/qasm2.cpp:137-217", "src/qasm/qasm2.cpp:219-345", "src/qasm/qasm2.cpp:395-706"]}
{"id": "C87", "title": "The JSON readers read what the JSON says", "statement": "A gate, parametric gate or circuit read from JSON is exactly the one the factory functions make from the fields of the JSON value: type, targets, controls with their values, angles, Pauli string and coefficient, distribution, nested gates, keys of parameters, in their order. Conversely every JSON value that describes a gate or circuit is read as that gate or circuit.", "quantifier": "every JSON value", "why_tests_cant": "the tests only read back what the writers wrote; the claim is about every value that is accepted", "anchors": ["include/scaluq/gate/gate.hpp: from_json", "include/scaluq/gate/gate_standard.hpp: from_json", "include/scaluq/gate/gate_pauli.hpp: from_json", "include/scaluq/gate/param_gate.hpp: from_json", "include/scaluq/circuit/circuit.hpp: from_json"]}
{"id": "C88", "title": "Classical registers are objects with references into batches", "statement": "In a program that constructs, copies, references, writes, resets and assigns named ClassicalRegister and ClassicalRegisterBatched objects: every bit reads as the last value written to it through any name, and False before the first write or after a reset; a reference X[b] is the register in slot b, a copy is independent; an index out of range raises an exception and changes nothing; the size of a register and the number of registers of a batch never change; assigning a register of another size to a slot is refused.", "quantifier": "every finite sequence of such commands on any number of objects, with exceptions caught", "why_tests_cant": "the tests write and read single bits of fresh registers; aliasing through references and the effect of refused commands need sequences of commands", "anchors": ["include/scaluq/classical_register/classical_register.hpp:13-68", "include/scaluq/classical_register/classical_register_batched.hpp:15-112"]}
{"id": "C89", "title": "Circuit objects are lists of lines with value semantics, also when a circuit is appended to itself", "statement": "In a program that constructs, copies, assigns and extends named Circuit objects (single gates, parametric gates, conditional gates, whole circuits by reference or by move), n_gates, get_gate_at, get_param_key_at, get_classical_condition_at and update_quantum_state see exactly the lines added to that object, in order; x.add_circuit(x) doubles x; extending one object never changes another; an index out of range raises an exception; no invalidated iterator is used and no vector is read out of range.", "quantifier": "every finite sequence of such commands on any number of objects, every allocation policy of std::vector", "why_tests_cant": "the tests append small, distinct circuits; iterator invalidation depends on capacities and on aliasing", "anchors": ["include/scaluq/circuit/circuit.hpp:34-126", "src/circuit/circuit.cpp:51-74", "src/circuit/circuit.cpp:293-307"]}
{"id": "C90", "title": "update_quantum_state does with its arguments what they say: register, seed, parameters", "statement": "A call of update_quantum_state on a gate, a parametric gate or a circuit with a state (or a batch), an optional classical register, an optional seed and the parameters (number, list, dictionary or keyword arguments) performs exactly the instructions, with the bits of the given register (none without one), the random numbers of the given seed and the parameters given under their keys; the register afterwards holds the recorded bits. A call with a seed is repeatable. Arguments that do not fit (a batched register with one state or the reverse, a number for a batch or the reverse, dictionary and keywords together, a wrong number of register rows or of parameters, a circuit with classical bits but no register) raise an exception and change neither state nor register.", "quantifier": "every gate, parametric gate and circuit built by the factories, every state and batch, every combination of the optional arguments, every seed and random source, every interleaving of the kernels", "why_tests_cant": "the combinations of optional arguments, seeds and kinds of parameters multiply; the tests use few of them, and none with a wrong number of parameters without register", "anchors": ["include/scaluq/gate/gate.hpp:314-347", "include/scaluq/gate/gate.hpp:690-741", "include/scaluq/gate/param_gate.hpp:120-163", "include/scaluq/gate/param_gate.hpp:387-450", "src/circuit/circuit.cpp:76-156", "include/scaluq/circuit/circuit.hpp:145-303"]}
{"id": "C91", "title": "Density matrices as objects: copies are independent, shared handles share the matrix, is_hermitian() tells the truth", "statement": "Every program that constructs density matrices (from a size, from a state vector, by copy(), by get_partial_trace(), in C++ also by copying a DensityMatrix object or from its view) and changes them (set_*, load, force_hermitian, normalize, multiply_coef, add_density_matrix_with_coef, gates) has exactly one result, whatever newly allocated memory contains: each object has the matrix and the is_hermitian() answer that the commands executed on it say. Objects made by copy() or get_partial_trace() are independent of their source; objects made in C++ by copying a handle share the matrix (not the flag). Loading an object from itself or adding it to itself works. Commands with wrong sizes or indices throw and change nothing. If the claims made by the program (load(matrix, true), force_hermitian, diagonal pairs) are true, every object answering is_hermitian() = true has a Hermitian matrix.", "quantifier": "every program (finite sequence of commands) over any number of objects of fewer than 32 qubits, every content of uninitialised memory, every interleaving of the kernels", "why_tests_cant": "aliasing between objects appears only in sequences of calls; the tests use one object at a time and never two that share a view", "anchors": ["include/scaluq/state/density_matrix.hpp:9-60", "src/state/density_matrix.cpp:6-30", "src/state/density_matrix.cpp:45-74", "src/state/density_matrix.cpp:90-97", "src/state/density_matrix.cpp:115-221", "src/state/density_matrix.cpp:234-294", "src/state/density_matrix.cpp:469-499"]}
{"id": "C92", "title": "Parametric rotations and circuits with parameters in floating-point arithmetic", "statement": "In floating-point arithmetic obeying the standard model of rounding, ParamRX, ParamRY, ParamRZ and ParamPauliRotation applied with parameter t differ from the exact rotation by coefficient*t by at most 256*(eps*|state| + eta*sqrt(dim)), on one state and on every state of a batch with its own parameter, although the angle is the rounded product of two rounded numbers and the batched kernels form it in another order. A circuit of k unitary gates and parametric rotations has an error of at most k*E, as long as k*E <= 1. In any arithmetic the amplitudes do not depend on the schedule; under the sign laws of IEEE arithmetic they do not depend on the number of SIMD lanes, and each state of a batch ends bit for bit as a single state updated with its parameter does.", "quantifier": "every number type satisfying the stated rounding laws, every rotation with bounded coefficient, parameter and angle, every register of fewer than 64 qubits, every batch, every circuit of such lines, every schedule, every lane width", "why_tests_cant": "tests compare a few random angles with a tolerance far above the rounding error; they cannot bound the error for all angles and circuits nor compare bits between the single and batched code for all inputs", "anchors": ["src/gate/param_gate_standard.cpp:20-110", "src/gate/param_gate_pauli.cpp:28-75", "src/gate/update_ops_standard.cpp:77-205", "include/scaluq/operator/apply_pauli.hpp:173-310", "include/scaluq/gate/param_gate.hpp:67", "src/circuit/circuit.cpp:76-141"]}
{"id": "C93", "title": "Normalisation and linear combination of states in floating-point arithmetic", "statement": "In floating-point arithmetic obeying the standard model of rounding, normalize() of a state whose squared norm is computed with relative error at most rho <= 1/4 divides every amplitude so that the result is within 4*rho+12u+2*eta*sqrt(dim) of the exact state divided by its norm, hence has a norm that close to one, whatever order the reduction adds in; the same holds for every state of a batch. multiply_coef and add_state_vector_with_coef with a coefficient of at most one in absolute value are within the rounding error of the exact linear combination, and add never races nor leaves the memory. A circuit of k gates followed by normalize() is within 2kE + 4*rho+12u+2*eta*sqrt(dim) of the exact result, with no assumption about the computed state. In half precision normalize() fails on a state of norm one: for the uniform superposition on 26 qubits every square underflows, the norm is 0 and the amplitudes become infinite.", "quantifier": "every number type satisfying the stated rounding laws, every register of fewer than 64 qubits, every batch, every state in the stated range, every order of the reduction, every schedule, every circuit of unitary gates and parametric rotations", "why_tests_cant": "tests normalise a few random states of few qubits in double precision with a loose tolerance; they cannot bound the error for every state, reduction order and circuit, and a 26 qubit half precision state is outside the test suite", "anchors": ["src/state/state_vector.cpp:109-128", "src/state/state_vector.cpp:206-222", "src/state/state_vector_batched.cpp:275-296", "src/state/state_vector_batched.cpp:438-447", "include/scaluq/type/complex.hpp:56-105", "include/scaluq/util/math.hpp:9-134"]}
{"id": "C94", "title": "Merged gates and optimised circuits run on the states their parts ran on", "statement": "merge_gate for execution space s returns one of its arguments or a gate made for s, and does otherwise what it does when there is one space: gates accepted by states of space s merge into a gate accepted by states of space s with the effect of the two. Circuit::optimize for space s leaves only entries of the old circuit and gates made for s, so that a circuit that runs on states of space s still runs on them, with the same outcome where optimisation is sound (C40). The same should hold from Python, whatever space the states have; it does not: the Python method optimize always makes gates for Host and the Python function merge_gate always for the default space, so that optimising two Hadamard gates from Python gives a circuit that every HostSerial state (and, with CUDA, every state of the default space) refuses, although the circuit ran on it before.", "quantifier": "every execution space, every pair of gates and every circuit (conditional, random, parametric entries included), every block size, every state, register and random stream", "why_tests_cant": "tests run merge_gate and optimize on states of the space named in the template argument; the Python tests optimise on the default space of builds without CUDA; they cannot show that no entry of another space can appear for any circuit", "anchors": ["src/gate/merge_gate.cpp:8-343", "src/circuit/circuit.cpp:328-492", "src/gate/gate_matrix.cpp:110-159", "include/scaluq/circuit/circuit.hpp:482-486", "include/scaluq/circuit/circuit.hpp:724-729", "include/scaluq/gate/merge_gate.hpp:10-19", "python/scaluq/__init__.py:134-147", "python/binding.cpp:91-162"]}
{"id": "C95", "title": "Gates on density matrices in floating-point arithmetic stay close to U rho U-dagger", "statement": "Every gate with a density-matrix kernel (identity, global phase, the one-qubit gates, Swap, ECR, with any controls), applied with update_quantum_state to a density matrix in floating-point arithmetic, has one outcome under every schedule, and it differs from the exact product U rho U-dagger by at most 8192 (eps |rho| + eta dim) in the Frobenius norm, where eps bounds the rounding errors and eta the underflow. k such gates on a matrix of norm at most one differ from the exact sequence by at most k times this; hence every element is that accurate, a Hermitian matrix stays Hermitian up to twice that, and unitary gates keep the trace up to sqrt(dim) times that. Gates of the other classes and gates outside the register throw in every precision. In exact arithmetic the computation is that of C50.", "quantifier": "every floating-point arithmetic with the standard error model, every register below 32 qubits, every gate of the classes, every angle up to 32, target and control, every matrix and every sequence of gates with k E <= 1, every schedule", "why_tests_cant": "tests compare a few circuits on a few random matrices with a tolerance; they cannot bound the error for all matrices, angles and numbers of gates", "anchors": ["src/gate/update_ops_dm_standard.cpp:1-714", "src/gate/gate_standard.cpp:35-1376", "include/scaluq/gate/gate.hpp:482-497", "include/scaluq/type/complex.hpp:1-140"]}
{"id": "C96", "title": "Traces, probabilities, purity and partial traces of density matrices in floating-point arithmetic", "statement": "In floating-point arithmetic, with the additions of a reduction in any order and any partial sums: get_trace is the sum of the diagonal up to ((1+u)^dim - 1) times the sum of its magnitudes; get_zero_probability and get_marginal_probability of a matrix flagged Hermitian are the sums of the real diagonal elements with the given bits, with the same kind of error; get_purity is the sum of all squared magnitudes up to the error of a sum of dim^2 squares; get_partial_trace with fewer than 16 qubits left returns a matrix of the remaining qubits, each element the sum of the elements that agree on the traced qubits, up to ((1+u)^(2^k) - 1) times the sum of the magnitudes added. Bad qubits, bad patterns, repeated traced qubits and (for probabilities and purity) matrices without the Hermitian flag throw in every precision. After k gates on a matrix of norm at most one the trace, every probability and the purity are those of the exact gates up to the errors of the gates plus that of the sum. In exact arithmetic all orders agree with C51 and C58.", "quantifier": "every floating-point arithmetic with the standard error model, every register (gates and partial traces: below 32 qubits), every matrix, qubit, pattern and list of qubits, every order of the additions", "why_tests_cant": "tests compare a few matrices with a tolerance on one machine, where the reduction takes one order; they cannot bound the error for every order, size and matrix", "anchors": ["src/state/density_matrix.cpp:223-283", "src/state/density_matrix.cpp:295-384", "include/scaluq/type/complex.hpp:1-140"]}
{"id": "C97", "title": "Loading, scaling, adding and normalising density matrices in floating-point arithmetic; agreement with state vectors", "statement": "In floating-point arithmetic, under every schedule: DensityMatrix::load(StateVector) leaves |psi><psi| up to 6u|psi|^2 + 6 eta dim in the Frobenius norm; multiply_coef and add_density_matrix_with_coef (coefficients of magnitude at most one) leave c rho and rho + c sigma up to a few rounding units of the norms; normalize of a matrix whose trace T has magnitude between 1/2 and 2 leaves every element z / T up to (432(u+eta) + 8 tau)|z| + 112 eta, tau the error of the computed trace whatever the order of its additions, so that the trace afterwards is one up to the same kind of error. Arguments of another size throw in every precision. Loading a state vector of norm at most one, applying k gates to the density matrix and asking for the probability of a pattern gives the probability after the exact gates on the state vector up to sqrt(dim) times (error of the load + k times that of a gate + error of the sum); hence any outcome of the density-matrix simulation and any outcome of the state-vector simulation of the same circuit differ by at most the sum of their bounds. In exact arithmetic the operations are those of C59.", "quantifier": "every floating-point arithmetic with the standard error model, every register below 32 qubits, every state vector, matrix and coefficient in the stated ranges, every sequence of gates, every pattern, every schedule and order of additions", "why_tests_cant": "tests compare both simulators on a few random circuits with a tolerance; they cannot bound the difference for every circuit, state, order of additions and precision", "anchors": ["src/state/density_matrix.cpp:147-163", "src/state/density_matrix.cpp:285-294", "src/state/density_matrix.cpp:469-499", "include/scaluq/type/complex.hpp:80-140"]}
{"id": "C98", "title": "Transition amplitudes and readings of Pauli operators in floating-point arithmetic", "statement": "In floating-point arithmetic, whatever the order in which the parallel reduction adds: Operator::get_transition_amplitude is <bra|O|ket> up to ((1+u)^(T N + 8) - 1) C S + 240 N eta (T + C)(1+u)^(T N) in each part (T terms, N = 2^(n-1) work items per term, C the sum of the magnitudes of the coefficients, S the sum of the two squared norms); the batched get_transition_amplitude and get_expectation_value give one such value per state of the batch; PauliOperator::get_expectation_value and get_transition_amplitude are coef <bra|P|ket> up to ((1+u)^(dim + 8) - 1) |coef| S plus an underflow term. Operators refuse states with different numbers of qubits and batches of different sizes with an exception; Pauli operators do not compare the sizes, and with a diagonal operator and a ket smaller than the bra every outcome is undefined behaviour. If bra and ket are the states computed by two circuits of k1 and k2 unitary gates from states of norm at most one, the amplitude differs from the exact one by at most C (k1 + 2 k2) E more, E the error of a gate. In exact arithmetic the functions are those of C23 and C26.", "quantifier": "every floating-point arithmetic with the standard error model, every operator with coefficients of magnitude at most 4 (Pauli operators 32), every register of 1 to 64 qubits, every pair of states with amplitudes of magnitude at most 2, every batch size, every pair of circuits, every order and grouping of the additions", "why_tests_cant": "tests compare a few random amplitudes with a fixed tolerance; they cannot bound the error for every operator, state, order of additions and precision, nor for states computed by circuits of any length", "anchors": ["src/operator/operator.cpp:240-424", "src/operator/pauli_operator.cpp:135-175", "src/operator/pauli_operator.cpp:244-287"]}
{"id": "C99", "title": "Readings of batched operators, of single terms and of Pauli operators on batches in floating-point arithmetic", "statement": "In floating-point arithmetic, whatever the order in which the parallel reductions add: OperatorBatched::get_transition_amplitude and get_expectation_value return one number per operator, the b-th being <bra_b|O_b|ket_b> up to ((1+u)^(T N + 8) - 1) C S + 240 N eta (T + C)(1+u)^(T N) in each part (T terms of operator b, N = 2^(n-1), C the sum of the magnitudes of its coefficients, S the sum of the two squared norms), for one pair of states as for batches; an empty operator gives zero. Batches that do not have one state for every operator, batches of different sizes and states with different numbers of qubits throw. Operator::get_expectation_values returns one number per term, the expectation value of that term up to the same kind of bound. PauliOperator::get_expectation_value of a batch gives one value per state. In exact arithmetic the functions of batched operators are those of C55.", "quantifier": "every floating-point arithmetic with the standard error model, every batched operator (any number of operators and terms, coefficients of magnitude at most 4), every register of 1 to 64 qubits, every state with amplitudes of magnitude at most 2, every order and grouping of the additions", "why_tests_cant": "tests compare a few small batches with a fixed tolerance; they cannot bound the error for every batch, operator, order of additions and precision, and they never reach the register size where the cast of the loop bound to int overflows", "anchors": ["src/operator/operator_batched.cpp:71-337", "src/operator/operator.cpp:163-238", "src/operator/pauli_operator.cpp:176-243"]}
{"id": "C100", "title": "How the matrix of a dense gate is stored and read back", "statement": "A dense matrix gate stores the matrix it is given element by element in the precision of the gate, in one of four forms (number, 2x2, 4x4, view) that depends on the size only: element (r, c) that a kernel reads is element (r, c) of the given matrix with both parts rounded once, whatever the order of the parallel conversion, and reading outside is undefined behaviour. get_matrix returns a matrix of the same size whose elements differ from the given ones by that one rounding; a matrix of numbers of the precision of the gate comes back unchanged, and so does the matrix of a gate when a second gate is made from it. get_matrix_internal has the same elements as get_matrix. The inverse of a gate marked unitary has exactly the conjugate transpose of get_matrix, without further rounding, and inverting twice gives back the matrix; a gate not marked unitary throws.", "quantifier": "every matrix with fewer than 2^31 rows and columns, square or not, every floating-point arithmetic in which converting to double and back changes nothing (for the error bound: with the standard error model and elements of magnitude at most 64), every order of the parallel loops", "why_tests_cant": "tests read back a few small matrices in one precision on one machine; they cannot cover every size, every layout, every schedule of the conversion loops and every element, nor show that repeated conversions never drift", "anchors": ["src/gate/gate_matrix.cpp:6-99", "src/util/utility.cpp:6-67", "include/scaluq/gate/gate_matrix.hpp:13-45", "include/scaluq/type/eigen_types.hpp:200-201"]}
{"id": "C101", "title": "How the matrix of a sparse gate is stored and read back", "statement": "gate::SparseMatrix performs the matrix given by the elements of the SparseComplexMatrix on the targets, and get_matrix and get_matrix_internal return that matrix, whatever the order in which the teams write, for every matrix Eigen can hold. (The code does so for compressed matrices, and for all matrices if the targets are not sorted. A matrix that is not compressed, e.g. filled by insert or coeffRef after reserve without makeCompressed, is copied wrongly if the targets are sorted: the row pointers count reserved slots that the copied arrays do not have, so applying the gate and reading its matrix are undefined behaviour.)", "quantifier": "every sparse matrix with any number of reserved slots with any contents, all targets, controls and control values, every register below 64 qubits, every schedule", "why_tests_cant": "tests only use matrices made by sparseView(), which are always compressed; no test can cover every layout, size and schedule, and undefined behaviour need not show", "anchors": ["src/types.cpp:7-22", "src/gate/gate_matrix.cpp:163-194", "src/util/utility.cpp:68-80", "include/scaluq/gate/gate_factory.hpp:368-389"]}
{"id": "C102", "title": "The block size of Circuit::optimize", "statement": "Whatever the circuit and the block size b, every entry of the circuit after optimize(b) is an entry of the circuit before, with its condition, or an unconditional gate that is a Pauli gate (X, Y, Z or a Pauli string, possibly controlled) or has at most b target qubits. A circuit of two unconditional gates that share a qubit is merged to one gate (and a global phase, if merge_gate returns one above 1e-12) if the qubits of the two, not counting controls they share with equal values, are at most b or both are Pauli gates with the same controls, as far as the merged gate acts on all their qubits; otherwise the circuit stays exactly as it is.", "quantifier": "every circuit of any length, every block size, every gate", "why_tests_cant": "unbounded circuits and block sizes; the merged size depends on which gates wait on which qubits", "anchors": ["include/scaluq/circuit/circuit.hpp: optimize (documentation of max_block_size)", "src/circuit/circuit.cpp: optimize", "src/gate/merge_gate.cpp: merge_gate, merge_gate_dense_matrix"]}
