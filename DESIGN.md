# Formal model of scaluq in Lean 4

Source: `/repo` (qulacs/scaluq), read as text. Lean project: `/verif/lean`.
`properties.jsonl` holds the claims in English, `MANIFEST.json` their status and theorem names,
`seeded/LOG.jsonl` the wrong programs the theorems were tried against.

## 1. Approach

* **64-bit indices.** Basis indices, masks and work-item numbers are `BitVec 64` with the C++ wrap-around
  meaning; `~`, `-x`, `<<`, `>>`, `popcount`, `countr_zero` are modelled bit by bit. Qubit numbers and sizes of
  vectors are natural numbers.
* **Parallel kernels.** A kernel body is a program in a small read/write language (`Core/Prog.lean`). `parallel_for`
  is a pool of such programs, one per work item; an execution is *any* interleaving of their individual
  loads and stores. An out-of-range load or store is a distinct outcome (undefined behaviour), and so is a data race
  (two work items, same cell, one of them a plain store). Kernel theorems say: no execution reaches undefined
  behaviour, and every complete execution ends in the state given by the specification. `Core/Atomic.lean` adds
  `Kokkos::atomic_add`, `Core/Slots.lean` teams, `Core/Pair.lean` two-dimensional ranges.
* **Batches.** A batched state is the flat index space `batch * 2^n` used by `at_unsafe(index)`; a single
  state is batch = 1. Kernel theorems are stated for all batch sizes at once.
* **Amplitudes.** Kernels are generic in the number type. Moves and copies (X, Swap, Permutation) need no
  arithmetic at all; the other kernels are stated for any commutative ring or for the complex numbers.
  `Model/Float.lean` and `Model/FloatReduce.lean` run the same kernels in an arbitrary floating-point arithmetic (C67-C69, C72, C92, C93, C95-C100, with `Model/FloatParam.lean`, `Model/FloatVec.lean`, `Model/FloatDensity.lean`, `Model/FloatDensityRead.lean`, `Model/FloatDensityVec.lean`, `Model/FloatTransition.lean`, `Model/FloatOpBatched.lean` and `Model/MatrixStore.lean`); all other properties are
  about exact numbers.
* **Specification.** Lives in `Spec/` and speaks only about bits of indices, matrices, finite sums, complex numbers,
  lists of gate descriptions and characters; it uses none of the helpers of the model.
* **Errors.** A C++ exception is `Fault.throw`, undefined behaviour (out-of-range access, shift by >= 64, ...)
  is `Fault.ub`; results are `Except Fault`. Loops that may run forever are relations (no result exists), never
  functions with a bound on the number of steps, unless the bound is proved to be sufficient.
* **Partial results.** If the code violates a claim, a theorem `Cxx_counterexample…` proves the negation on a concrete
  input and `Cxx_…_partial` proves the rest.

Layout: `Core` (semantics of kernels, bit arithmetic), `Spec` (specifications), `Model` (the code), `Proofs` (lemmas),
`Props` (the property theorems with their examples, `Props/Axioms.lean` prints the axioms of every one).

## 2. Properties and how they are proved

| property | what is modelled | how it is proved |
|---|---|---|
| C01 | `insert_zero_at_mask_positions` on BitVec 64 | induction over the set bits of the mask; bijection onto indices with masked bits zero |
| C02 | interleaving semantics of `parallel_for` | disjoint-footprint theorem by induction on executions |
| C03-C05 | kernels of `update_ops_standard.cpp`, `update_ops_matrix.cpp` | C01 + C02 + one-iteration computation |
| C06 | Permutation constructor (cycle following) and kernel | invariant of the schedule construction |
| C07 | DenseMatrix factory, reordering, 4 kernels | refinement to one specification |
| C08 | CSR kernel | sum over row equals dense row |
| C09 | SIMD dispatch and kernels | same specification as the scalar kernel |
| C10 | flat batched addressing | kernel theorem restricted to a slot |
| C11-C12 | apply_pauli, apply_pauli_rotation | C01/C02 + parity lemmas |
| C13-C15 | gate matrices, inverses | complex algebra on the specification |
| C16-C17 | mask functions, factories, bounds checks | case analysis / induction on lists |
| C18-C25 | PauliOperator | bitwise induction |
| C26-C32, C55 | Operator, OperatorBatched | list induction, invariant of the CSR layout; negations by concrete witness where the code deviates |
| C33-C37, C56-C57 | StateVector, sampling, measurement, probabilistic gates | sums over finite sets; the random source is an input |
| C38-C46 | Circuit, merge_gate, optimize, gradient, noise simulation | induction on gate lists, simulation relations, invariants of the optimiser's lists |
| C47, C61, C62 | JSON writers and readers | round trip; totality of the readers on a described class of values |
| C87 | JSON readers, accepted values | inversion and totality: a reader succeeds with a gate exactly if the value, field by field, describes it |
| C88 | classical registers as objects | simulation: memory of vectors with references against a function of object, slot and position |
| C89 | circuit objects | simulation: vectors with capacity, reallocation and iterators against lists; every allocation policy |
| C90 | calls of `update_quantum_state` | decision logic over all combinations of arguments, on top of C35-C38 and C44 |
| C91 | density matrix objects | simulation: handles of allocations against named matrices; second simulation to plain values for programs without copied handles; invariant of the flag |
| C92 | parametric rotations and circuits with parameters in floating point | the error of a rounded product of rounded numbers, then the analysis of C67; one launch per state of a batch; induction over the circuit |
| C93 | normalisation and linear combination in floating point | error of a rounded quotient by a rounded square root; relative error of the reduction from C72; triangle inequality with C92; binary16 arithmetic for the counterexample |
| C95 | density matrix kernels in floating point | each kernel is close to a block operator on the cells it groups together, for the dense kernel with its 16 products of two coefficients; sums over blocks give the Frobenius norm; the exact map does not enlarge the norm, induction over the gates |
| C96 | reductions over density matrices in floating point | the general error bound of a reduction in any order (C72), applied to the real and imaginary parts; the exact sums of C51 and C58 of the matrix of magnitudes give the sum of magnitudes; after gates, Cauchy-Schwarz on the diagonal and the bound of C95 |
| C97 | making and combining density matrices in floating point | a bound per element gives one in the Frobenius norm; the product with a conjugate and the complex quotient (rounded numerators and denominator, quotient of two approximate numbers) are analysed once; the exact gates on a projector are the projector of the exact gates, so the simulation theorem follows from C95 and C96, and the comparison of the two simulators from C72 |
| C98 | transition amplitudes and Pauli readings in floating point | the product of two amplitudes, a power of i and a complex coefficient is followed as approximate real and imaginary parts; the magnitudes of the contributions of a work item are at most half the sum of the squared amplitudes it reads, so that over all work items they add up to half the sum of the squared norms; any order of additions by the lemma of C72; two circuits by Cauchy-Schwarz and C67 |
| C99 | readings of batched operators and of single terms in floating point | the terms a team reads are the terms of its operator (the row pointers, C30), then the lemma of C98 for every team; one term is an operator of one term, for C72; an empty loop adds zeros only |
| C100 | storing and reading the matrix of a dense gate | the conversion loops write disjoint elements, so every schedule ends in one array; row-major addresses are divided with remainder; the values of the precision of the gate are fixed points of the conversion and closed under conjugation |
| C101 | storing and reading the matrix of a sparse gate | a compressed matrix is the case of C08; the writes of the teams are disjoint because no column occurs twice in a row; with a reserved slot the last slot lies in some row but past the end of the copied arrays |
| C102 | the block size of `optimize` | invariant of the main loop: a waiting gate uses the qubits it waits on, and every gate of the pool is an old one, a Pauli gate or small; the targets of a merged gate lie in the counted qubits without the common controls (`Proofs/BlockSize`); exact evaluation of the loop on two gates (`Proofs/BlockPair`) |
| C48, C49, C60, C63 | OpenQASM export, import | round trip; simulation between the parser and a grammar with meaning |
| C86 | OpenQASM import, accepted texts | inversion of every function of the reader: an accepted text is in a (looser) grammar and the result is its meaning |
| C50-C52, C58-C59 | DensityMatrix and its kernels | kernels on pairs of indices; refinement to `U ρ U†` |
| C53-C54, C73 | Random::permutation, get_expanded_matrix | invariant; loop order; counting of the engine outputs that lead to a given result |
| C64 | power method of `Operator` | refinement to powers of `A - mu`; log-convexity of the moments of a positive operator |
| C65 | Arnoldi method of `Operator` | loop invariant: orthonormal basis of the Krylov space and the matrix of `A - mu` in it; Ritz vectors |
| C66 | `add_observable_rotation_gate` | operator norm estimates: first-order product formula with an explicit error bound |
| C67 | gate updates and circuits of gates in floating point | forward error analysis of every kernel in the standard model of rounding; induction over the circuit |
| C68 | SIMD kernels against scalar kernels in floating point | the same operations in the same order up to exact sign and commutativity laws |
| C69 | gate updates in any arithmetic | every amplitude is computed by one work item in a fixed order of operations |
| C70 | StateVector and StateVectorBatched objects as handles to memory | refinement: programs on memory (`Model/Handle`) against programs on cells without addresses (`Spec/Sharing`) |
| C71 | the constructor of `PauliOperator` from text | the reading loop against an inductive grammar |
| C74 | circuits with measurements, probabilistic gates and conditions, on average | every run follows one path of choices; a path is a box of random numbers; the average of a function that scales with the squared modulus is the sum over the branches (`Spec/Ensemble`) |
| C75 | sampling, joint distribution | the runs that return `ks` are a countable union of boxes of random numbers, one for each history of rejections; geometric series |
| C76 | sampling in floating point | every table a scan can leave is close to the exact one; the search returns a bracketing index even if the table is not monotone; the rejection loop keeps the samples independent |
| C77 | `simulate_noise`, joint distribution of the shots | the paths of the shots are an explicit function of the draws (`drawnPaths`); at every gate the shots are only rearranged in a way that does not depend on the next block of draws (`Layered`); induction over the gates |
| C78 | Haar random states | the amplitudes before `normalize` are a standard normal vector (`stdGaussian`), whose distribution isometries keep; normalising commutes with unitaries; uniqueness by comparing characteristic functions, second moments from sign changes and permutations of the amplitudes |
| C79 | average effect of the noise gates | the gates of the factories are the lines `noiseLine`; the branches of C74 with such a line give the Kraus sum of the channel; repetition by induction with the closed form of the error rate; Pauli observables by conjugation `O P O = ±P` on the masks |
| C80 | texts of `to_string` | the text is split at line breaks (`List.splitOn`) and compared with lines written down independently (`Spec/Text`); labels, numerals and lists in braces are injective; equal texts give equal lines, hence equal operand lists, and the operand lists determine the masks; deviations: Pauli gates and parametric gates do not show control values, Pauli gates no coefficient, `ParamPauliRotation` no parameter coefficient, `U2` writes the angles before the type |
| C81 | handles of gates and their types | induction over the constructions and conversions of a handle (`Obtained`); circuits with type tags (`Model/Tagged`) are compared with the models that read the class of the object: equal for factory gates, and for running whatever was inverted, joined or optimised (`AssembledTagged`); `get_inverse` gives the type `Unknown`, and the consequences are proved as counterexamples |
| C82 | gates on very large states | the kernels of matrix gates with the league size as `int` (`Model/League`): equal to the model without the conversion below 2^31 groups; exact outcome for 2^31 groups and for multiples of 2^32 |
| C83 | execution spaces | gate objects with the space of their class (`Model/Space`); refinement to the model without spaces, exact outcome at the first gate of another space, preservation by `get_inverse` and `add_circuit` |
| C94 | execution spaces of merged gates and optimised circuits | `merge_gate` and `optimize` on objects with spaces (`Model/SpaceMerge`): projection to the models without spaces step by step, invariant of the origin of every gate; with C40, C41 and C83 the effect; Python dispatch and its counterexamples |
| C84 | entropies in floating point | error of `-p log2 p` from the errors of the probability and the logarithm (`Proofs/EntropyReal`), then the reduction lemma of C72; NaN absorbs every addition; a concrete binary16 (`Spec/Binary16`) for the counterexample |
| C85 | Operator and OperatorBatched objects as handles to memory | refinement: programs on arrays of terms and row pointers (`Model/OpHandle`) against programs on cells without addresses (`Spec/OpSharing`); invariants on cells for independence of copies and coupling of views |
| C72 | norms, probabilities, inner products, expectation values in floating point | induction over all orders of adding; perturbation bounds to combine with C67 |

## 3. What is modelled

| source | model | not modelled |
|---|---|---|
| `include/scaluq/util/utility.hpp` | `Core/Bits`, `Core/Insert`, `Model/Mask`, `Model/Expand`, `Model/Dense`, `Model/Reduce`, `Model/MatrixStore` (dense matrices, `utility.cpp:6-67`) | host/device conversion of vectors; the copies between host and device inside the conversion of matrices, and its branch for double precision, which copies without rounding |
| `include/scaluq/util/simd_complex.hpp` | `Model/Simd` | the SIMD instructions themselves (lane-wise meaning assumed) |
| `include/scaluq/util/random.hpp` | `Model/Random` | `std::mt19937_64`, distributions (any stream of outputs) |
| `include/scaluq/operator/apply_pauli.hpp` | `Model/Pauli`, `Model/AppliedStates` | |
| `src/gate/update_ops_standard.cpp`, `update_ops_matrix.cpp`, `update_ops.hpp` | `Model/Kernels`, `Model/Dense`, `Model/Simd`, `Model/Gate1`, `Model/Gate2` | CUDA-only variants |
| `src/gate/update_ops_dm_standard.cpp` | `Model/DensityKernels` | |
| `src/gate/gate_standard.cpp`, `gate_matrix.cpp`, `gate_pauli.cpp`, `gate.cpp` and headers | `Model/Gate1`, `Gate2`, `Dense`, `UGate`, `Mask`, `ToText`, `GatePtr`, `MatrixStore`, `SparseStore` | |
| `src/gate/gate_measurement.cpp`, `gate_probabilistic.cpp`, classical registers, noise factories | `Model/RandomGate`, `ToText` | |
| `type/complex.hpp`, `util/math.hpp`, `constant.hpp` and the kernels above in floating point | `Model/Float`, `Model/FloatReduce`, `Model/FloatSample`, `Model/FloatEntropy`, `Model/FloatParam`, `Model/FloatVec`, `Model/FloatDensity`, `Model/FloatDensityRead`, `Model/FloatDensityVec`, `Model/FloatTransition`, `Model/FloatOpBatched` | `PauliOperator::get_transition_amplitude` of batches (wrong already in exact arithmetic, C24), `OperatorBatched::get_applied_states` and `add_state_vector_with_coef` of batches in floating point |
| `src/gate/param_gate*.cpp` | `Model/ParamGate`, `ToText` | |
| `src/gate/merge_gate.cpp` | `Model/Merge`, `Model/MergeAny`, `Model/SpaceMerge` | |
| `src/operator/pauli_operator.cpp` | `Model/Pauli`, `PauliBatch`, `PauliText`, `ToText` | |
| `src/operator/operator.cpp` | `Model/Operator`, `Model/OpHandle`, `Model/GroundState`, `ToText` | Eigen's eigenvalue solver (an input with a stated contract) |
| `src/operator/operator_batched.cpp` | `Model/OperatorBatched`, `Model/OpHandle`, `AppliedStates`, `ToText` | copies between spaces |
| `src/state/state_vector.cpp`, `state_vector_batched.cpp` | `Model/StateVec`, `Model/BatchAdd`, `Model/Handle`, `Model/Haar`, `ToText` | Haar random states in `Model/Handle` |
| `src/state/density_matrix.cpp` | `Model/Density`, `Model/DensityObjects` (handles), `Model/Haar`, `ToText` | reference counts; memory shared between a density matrix and a state vector |
| `src/circuit/circuit.cpp`, `circuit.hpp` | `Model/Circuit`, `EntryPoints` (the calls with register, seed and parameters; also those of `gate.hpp`, `param_gate.hpp` and the functions behind the Python methods), `CircuitObjects`, `Optimize`, `Noise`, `Gradient`, `Tagged`, `Space`, `SpaceMerge` | `Circuit` has lists where the code has vectors; `CircuitObjects` has vectors with capacities |
| `classical_register/*.hpp` with bindings | `Model/Registers`, `RandomGate` | |
| `src/qasm/qasm2.cpp` | `Model/Qasm` | source locations in messages, `strtod`, `printf` (contracts, see below) |
| JSON code in the headers | `Model/Json`, `JsonState` | nlohmann::json itself |
| `python/`, `exe/`, `include/scaluq/all.hpp`, `kokkos.hpp`, type headers | | not modelled |

Every definition of `Model/` cites the lines it models.

## 4. Simplifications, stated once

1. **Numbers** are exact: `Float<Prec>` is a real number (or an element of a ring), `Complex<Prec>` a complex number.
   Where the code would produce NaN by dividing by a zero norm the model faults. A probability distribution entry may
   be NaN (`none`) because the code treats this case separately. Exception: C67-C69, C72, C76, C92, C93 and C95-C100. There `Float<Prec>` is any type with
   operations; each operation is rounded on its own (no contraction into fused multiply-add, no reassociation), the payloads of NaN
   are ignored, angles and matrices are real numbers converted on entry (`double` to `Float<Prec>`), the inner reduction
   over the columns of a matrix row is taken in order (one thread per team, the host back end). C67 assumes `Accurate`
   (relative error `u`, absolute error `eta` of products and conversions, error `w` of `cos` and `sin`, for operands up to 64)
   and excludes matrices and Pauli operators with entries of magnitude greater than one, Pauli rotations with a coefficient that is
   complex or greater than one, angles above 32 and, for circuits, gates that are not unitary. `Spec/Binary64.lean` is an explicit
   arithmetic that meets the assumptions.
2. **Reductions** (`parallel_reduce`) are sums in a fixed order; with exact arithmetic the order is irrelevant
   (`reduceSum_perm`). The kernels only read. In floating point (C72) a reduction may add the contributions in any order with any
   partial sums that start from zero (`ReducesTo`); all outcomes are considered. In C76 the same holds for every element of the table
   left by `parallel_scan` (`ScanTable`). `BlockTable` is what the host back ends of Kokkos do: consecutive blocks of work items, one for
   each thread, a first pass for the totals and a final pass that starts from the sum of the totals before. This is knowledge of Kokkos;
   its source is not part of /repo.
3. **Random source.** Engine outputs and results of distribution objects are an arbitrary stream of numbers, one per call;
   theorems quantify over the stream. `std::bernoulli_distribution(p)` is "uniform number < p",
   `std::discrete_distribution` an arbitrary index stream. No statement about the quality of the generator is made;
   C73 counts outputs (`Spec/Chance`), that is, it assumes them independent and uniform. C74-C76 assume that the uniform
   numbers are independent and uniformly distributed in the real interval `[0, 1)` (`UniformDraws`, on any probability space; one exists);
   the generator delivers multiples of `2^-53`. C77 assumes that the indices delivered by `std::discrete_distribution` are
   independent and that index `j` has probability `w_j / sum w` (`IndexDraws`; such draws exist, `indexDraws_exist`). C78 assumes that the numbers of `normal(0, 1)` of Kokkos's
   generators are independent with the exact standard normal distribution, also across the generators of the pool (`NormalDraws`;
   `normalDraws_exist`), and real arithmetic.
4. **`std::upper_bound` / `lower_bound`** are modelled as the standard describes them on sorted ranges; the model uses
   the first position that satisfies the predicate.
5. **Memory of batches** is flat; the row padding of the batched layout is left out, except in `Model/Handle` (C70), where rows
   have any stride of at least their length. Other buffers that a kernel
   only reads (matrix, diagonal, second state) are constants during the kernel.
6. **Classical conditions** are functions of the register contents without side effects, which may throw.
7. **Parameter maps** (`std::map`) are partial functions on keys.
8. **Sharing.** Circuits, gates and, except in `Model/OpHandle` (C85), operators are values. The code shares gates by reference counting but never modifies a
   gate object after construction. State vectors are memory contents; a gate that works on a view of a batch slot
   (`RunsOnView`) reaches the memory of the batch unless its kernel ends with `std::swap(state._raw, ...)`: then only the
   handle of the view is replaced and the batch keeps its contents. C70 has objects as handles to allocations; allocations are never
   freed (reference counting makes no difference as long as an object refers to them), a gate update is what the gate theorems
   prove about it on the amplitudes read from memory (`GateOnVec`), and `states.set_state_vector(view of a row)` is left open because the
   kernel has a data race (`C70_own_view_races`). C85 does the same for operators; what an operation computes from the terms read from
   memory is taken from `Model/Operator` and `Model/OperatorBatched`. Left out there: `*=` of a batch, `load` from operators, density matrices.
9. **Optimiser.** `NO_GATES` is `none`; indices into the pool are natural numbers. The optimiser model carries a
   log of the merges (a ghost variable) used only in statements.
10. **Density matrices** have fewer than 32 qubits so that `dim * dim` fits 64 bits; an `MDRangePolicy` is one launch over
    all pairs; several threads of a team storing the same value in the same cell is not a race in
    `get_partial_trace` (every thread of a team computes the same sum); the conversion of the league size to `int` **is**
    modelled (C51).
11. **JSON.** A JSON value is a tree; objects are lists of keys with values. Writing NaN or an infinity gives `null`. Text
    layer, number printing and memory limits are trusted. Function arguments are evaluated left to right.
12. **OpenQASM.** Characters are those of the ASCII "C" locale. The C library enters through a structure `Libc` with the
    contracts `FormatOK` (what `printf("%.17g")` prints), `StrtodOK` (reading back a printed number gives the number) and
    `StrtodReads` (a numeral is read as its decimal value); they are hypotheses of the theorems, met by an explicit `Libc`
    (`exists_strtod`). Angle arithmetic is exact. The depth counter of parentheses is unbounded.
13. **Text streams** (`>> char`, `>> uint64_t`, `<<` of integers, `bool` and complex numbers) follow the C++ standard's description, "C"
    locale; `<<` of a floating point number is an arbitrary function (C80).
14. **Counters** of type `int`/`int64_t` over gates in a circuit do not overflow (fewer than 2^63 gates).
15. **Types of gates.** The code asks the field `_gate_type` of a handle for the kind of a gate. All models but `Model/GatePtr` and
    `Model/Tagged` ask for the class of the object. Both agree for gates made by factories and read from JSON (`C81_made`), and for running any
    circuit (`C81_running`); for `optimize`, `simulate_noise`, gradients and the OpenQASM export of circuits that contain
    inverses made by `get_inverse` they differ (C81), so there C40, C41, C45, C46, C48 and C77 speak about circuits of factory gates.
16. **League sizes.** The number of teams of a Kokkos `TeamPolicy` is an `int`; the code passes 64-bit counts. The conversion is modelled
    for `get_partial_trace` (C51), expectation values (C26), the CSR route (C55) and, in `Model/League` (C82), for the matrix kernels. Elsewhere it is left out: matrix
    gates in the other models act on fewer than 2^31 groups of amplitudes (`FewGroups`; `C82_agree` says that the models agree then), batches have
    fewer than 2^31 states, operators fewer than 2^31 terms.
17. **Execution spaces.** All models but `Model/Space` describe one execution space: the matrix gates were made for the space of the states
    (C83 says when this is the same). `Model/SpaceMerge` (C94) adds spaces to `merge_gate` and
    `optimize`. Two facts about the Python bindings are read off the sources and the documentation of nanobind, not modelled: definitions of one name are
    tried in the order of registration, and the class `Gate` belongs to the module of the default space.

## 5. Trusted base

* The Lean 4.33.0 kernel and the Mathlib definitions used in statements.
* Axioms: at most `propext`, `Classical.choice`, `Quot.sound` for every property theorem (`Props/Axioms.lean` prints them
  at every build; `AXIOMS.md` is that output). No own axioms, no `sorry`, no `native_decide`, no `bv_decide`.
* The correspondence between the C++ text and the model (checked by reading; every definition cites lines) and the
  simplifications of section 4.
* Kokkos (order of launches on one execution space instance, `parallel_for`, `parallel_reduce`, atomics), Eigen, nlohmann::json,
  the C and C++ standard libraries.

## 6. Where the code disagrees with the claims

Proved negations (theorem names in `MANIFEST.json`):

| claim | input | what the code does |
|---|---|---|
| C14, C39 | `PauliGate` whose coefficient does not square to 1 | `get_inverse` returns the gate itself |
| C16 | Pauli and PauliRotation gates, operators | no bounds check: qubits outside the register read and write out of range |
| C24 | batched transition amplitude of a Pauli operator | missing conjugation / phase: wrong value as soon as X or Y occur or amplitudes are complex |
| C23 | `PauliOperator::get_transition_amplitude` of states with different numbers of qubits | sizes are not compared: a smaller ket is read out of range (`C23_sizes_unchecked`); C23 is about states of one size |
| C25 | `PauliOperator::get_full_matrix` | ignores the coefficient |
| C26, C55 | operator values of a state without qubits | `dim >> 1` is 0: the result is 0 |
| C26, C99 | `get_expectation_values` with n >= 32 | the dimension is cast to `int` |
| C29 | products of operators | Hermitian flag wrong (`Operator*Operator`, `Operator*Pauli`, `get_operator_at`) |
| C31, C32 | `OperatorBatched *= vector` | coefficients indexed by flattened term; the Pauli version always reads out of range |
| C34 | sampling of a state of norm 0 | never returns |
| C76 | sampling in floating point with four or more threads | an index whose amplitude is exactly zero can be returned (`C76_zero_returned`): the scan is not monotone across threads |
| C35 | measuring an unnormalised state | undefined behaviour possible |
| C36/C39 | inverse of a probabilistic gate | draws again |
| C36 | batched probabilistic gate with a sparse matrix or a dense matrix on 3 or more qubits | these kernels swap buffers, which through a view changes nothing: the chosen gate is lost |
| C40 | `Circuit::optimize` on X(0), X(0) | returns one X gate; gates without operands are dropped |
| C41 | `merge_gate` of RZ rotations | angles below 2e-12 lose their global phase |
| C42 | `calculate_depth` with a probabilistic gate | throws |
| C44 | batched conditional gates | bypass the check for qubits measured without reset |
| C44 | batched conditional gate that is a sparse matrix or a dense matrix on 3 or more qubits | lost, for the same reason as in C36 |
| C45 | `simulate_noise` | ignores conditions |
| C46 | gradient with a controlled parametric gate | wrong derivative |
| C46 | gradient of an observable with X or Y on a qubit the circuit does not use | reads outside the state; the number of qubits is not checked (`C46_outside`) |
| C47 | P0, P1, DenseMatrix, SparseMatrix gates | written to JSON but not readable |
| C48 | `qasm2::dumps` | silently drops conditions; classical bit 2^64-1 wraps |
| C49 | register sizes adding up to >= 2^64 | elements alias |
| C51 | partial trace with >= 16 remaining qubits | league size is cast to `int` 0: uninitialised result |
| C52 | `set_coherence_pair_at(i, i, z)` with non-real z | Hermitian flag stays set |
| C53 | `Random::permutation(n)`, n >= 2^32 | some permutations unreachable |
| C73 | `Random::permutation(2)` | the exchange is slightly more likely than the identity because `int32()` has an odd number of values |
| C55 | batched operator kernel, slots mixing diagonal and flipping terms | data race between `+=` and `atomic_add`; batch_size 0 never terminates |
| C56 | `add_state_vector_with_coef` (single) | no size check: reads out of range |
| C57 | batched entropy | clamp of probabilities gives a wrong value for basis states (at most 5e-14 per basis state, `C57_batched_partial`) |
| C84 | batched entropy in half precision of a state with a vanishing probability | `1e-15` is rounded to 0, `0 * log2(0)` makes the result NaN; the single state gives the right value |
| C61 | JSON of operators | the Hermitian flag is recomputed |
| C62 | JSON readers | missing length checks, shifts by 64, unchecked member access, ragged matrices |
| C87 | number of targets in JSON, list of gates | an `X` gate with two targets is accepted, an object is accepted in place of a list of gates |
| C87 | numbers in JSON | converted without a check: `-1` is 2^64-1, `0.7` is 0 (`C87_conversions`; taken over into the specification) |
| C88 | `ClassicalRegisterBatched::operator[]` in C++ | returns a mutable reference, so a register of another size can be assigned; `register_size()` then disagrees with the slot (`C88_cpp_assignment`; the Python binding checks) |
| C89 | `x.add_circuit(std::move(x))` | leaves the first half of the entries moved-from (`C89_self_move`; outside the specification) |
| C90 | `ParamGate::update_quantum_state(batch, params)` without register (`param_gate.hpp:137-144`) | the number of parameters is not compared with the batch size, unlike in the overload with register (`:145-163`): too few are read out of range, too many are accepted (`C90_counterexample`); reachable from Python if neither register nor seed is given |
| C90 | documentation of `classical_register` (`param_gate.hpp:520-523`) | "if not provided, a new register with appropriate size is created"; the register created has size 0, so a measurement without register always throws (`C90_refused_bits`) |
| C91 | two C++ `DensityMatrix` objects with one view (`density_matrix.hpp:9-26`, implicit copy) | the elements are shared but `_is_hermitian` is not: after `y = x; y.set_coherence_at(0, 1, 1)` the object `x` still answers `is_hermitian() = true`, and `x.get_purity()` etc. do not throw (`C91_flag_counterexample`); not reachable from Python |
| C63 | OpenQASM comments | removed without leaving a separator: `h/**/q[0];` becomes `hq[0];` |
| C86 | texts outside OpenQASM 2.0 that are accepted | signs in indices and sizes (`q[+0]`), a comma at the end of a list (`h q[0],;`, `rx(1,) q[0];`), register names that are no identifiers or empty (`qreg [3];`), hexadecimal numbers and everything else `strtod` reads, anything after a NUL character in an index |
| C64 | power method with the default shift, started in an eigenstate whose eigenvalue equals the shift (Z on the state 0) | divides by zero |
| C65 | Arnoldi method with dependent Krylov vectors, always if iter_count > 2^n (the example in the documentation: 40 iterations on 2 qubits) | divides by zero; in floating point the result depends on rounding errors |
| C65 | Arnoldi method started in a state that is not normalised | value below the ground energy |
| C65 | Arnoldi method with iter_count = 0 | reads the first of no eigenvalues |
| C66 | rotation by an observable with an angle below 1e-12 and large coefficients | nothing is appended although the rotation is large (witness: a rotation that takes 0 to 1) |
| C80 | `to_string` of `Pauli`, `PauliRotation`, all parametric gates | control values are not shown; two gates with different control values have the same text |
| C80 | `to_string` of `Pauli`, `PauliRotation`, `ParamPauliRotation` | the coefficient of the Pauli operator (and the parameter coefficient) is not shown |
| C80 | `to_string` of `U2` | the angles come before the line with the type |
| C81 | gates made by `get_inverse`, all gates of an inverse circuit | the handle is made of a `shared_ptr` to the base class, so `gate_type()` is `Unknown`; conversion to the own class throws |
| C81 | OpenQASM export of an inverse circuit | always throws |
| C81 | `simulate_noise` of an inverse circuit with random choices | one state for all shots |
| C81 | gradient of an inverse circuit with a Pauli rotation of coefficient 2 | wrong value |
| C81 | `optimize` of an inverse circuit | drops global phases; throws if a random choice meets another gate on its qubits |
| C81 | `Probabilistic` made of the inverse of a probabilistic gate | the alternatives are not flattened |
| C81 | matrix gate for one execution space converted to the class for another | passes the check although the object is of another class (undefined behaviour) |
| C82 | dense gate on >= 3 qubits, sparse gate: 2^31 groups of amplitudes (e.g. 3 of 34 qubits) | negative league size |
| C82 | the same with 2^32 groups (e.g. 3 of 35 qubits) | no teams run: every amplitude selected by the controls becomes 0 |
| C93 | `normalize()` in half precision of the uniform superposition on 26 qubits (and every state whose amplitudes are below about 2^-13) | the squares underflow, the computed norm is 0, the amplitudes become infinite although the state has norm one (`C93_half_counterexample`) |
| C94 | Python `circuit.optimize()` (`circuit.hpp:482-486, 724-729`) and `merge_gate` (`__init__.py:134-147`) | the gates made are for `Host` and for the default space, whatever space the states have: two Hadamard gates run on a `host_serial` state, the optimised circuit throws (`C94_python_counterexample`); with CUDA the optimised circuit throws on states of the default space |
| C101 | sparse gate with sorted targets of an Eigen matrix that is not compressed | `nonZeros()` elements are copied but the row pointers count reserved slots: reads past the end |
| C72 | `get_squared_norm` of the amplitudes 1, 2^-27, 2^-27, 2^-27 | the last bit depends on the order in which the threads add |
| C71 | `PauliOperator("X -18446744073709551615")` | a negative number wraps around and is accepted as qubit 1 |
| C70 | view of a row of a batch updated by a sparse matrix gate or a dense one on 3 or more qubits | the view leaves the batch, the batch keeps its contents |
| C85 | `Y = X; X.load(...)` for batched operators with other sizes | the shared row pointers are overwritten, the terms are not shared any more: `Y` reads outside its array |
| C85 | `y = x; y *= i` for operators | the terms are shared, the Hermitian flag is not: `x.is_hermitian()` stays true |
| C66 | rotation by a product of operators that is flagged Hermitian but is not | accepted; the appended gates are not unitary |

Observations that are not part of a claim: optimised DenseMatrix gates are not marked unitary; a probabilistic gate may, by
its clamp, choose a last gate of probability 0; `update_quantum_state` of a circuit may throw half way (state already changed);
copying a `StateVector` with the copy constructor aliases the buffer; `StateVectorBatched::set_Haar_random_state` replaces the buffer, so
that views of the batch no longer belong to it; `gate::SparseMatrix` has no size check; the string
constructor of PauliOperator accepts negative numbers (stream extraction wraps them); gate names in OpenQASM are matched
case-insensitively; infinite angles are printed as `inf`; a trailing comma in an OpenQASM operand list is accepted.

## 7. Mutation tests

`tools/mutate.py` applies one wrong edit at a time to a scratch copy of the model and rebuilds the property modules;
every attempt is a line of `seeded/LOG.jsonl`. Nine edits of the OpenQASM reader that no theorem noticed led to the
property C63 (field `tightened`), which notices them.
An attempt whose edited definition was rejected by Lean says nothing and is marked so. An attempt for which nothing was built says nothing either and is
not logged: a list for C99 first named a target that does not exist, and its 26 lines, which the tool had taken for survivors, were removed; the tool now
tells the cases apart and the list was run again.

What a line shows is limited. `caught` means that the property modules no longer build after the edit, i.e. that some proof broke. Of the 1191 lines with `caught`,
265 have an error in a property file; in the other 926 a lemma below broke first. Then the theorem is not proved for the edited model, but that its statement is
false there was not shown; a broken proof script can also be mended for an edit that does no harm. This did happen: 7 edits that were equivalent for the property broke
a proof script and had been logged as caught; they are now marked as not caught (field `note`). Other lines of this kind may have gone unnoticed. The field
`properties_no_longer_proved` lists all theorems of the property in the modules built, not only those that fail. 5 lines for C102 failed in a lemma about another model
that was imported by accident (field `note`).
Two prepared lists were not finished when time was up: 7 of 69 edits for C94, C95 were tried in this run, and none of 52 for C03, C05, C06, C07, C10, C11, C16, C17, C26, C27, C33, C34, C36, C37, C39, C40, C41, C45, C47, C48, C61, C70, C71, C80, C81, C82.
