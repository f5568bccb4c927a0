import Verif.Model.DensityKernels
import Verif.Model.StateVec

/-!
# The density matrix object

Model of /repo/src/state/density_matrix.cpp.  A density matrix of `n` qubits has a flag `_is_hermitian` and a cell for
every pair of indices, of which the first `2 ^ n` rows and columns are allocated.

Simplifications: a kernel over `MDRangePolicy({0,0}, {dim,dim})` is a launch of `dim * dim` work items; the buffer of
another object is a constant during a kernel; a copy between host and device is an assignment.
-/

namespace Verif.Model
open Verif Prog
open scoped ComplexConjugate

/-- the fields of `DensityMatrix` (/repo/include/scaluq/state/density_matrix.hpp:9-22) -/
structure DM where
  n : Nat
  hermitian : Bool
  raw : U64 × U64 → ℂ

/-- what an operation does to an object: the flag it leaves and the kernels it runs -/
structure DMUpdate where
  hermitian : Bool
  launches : List (MLaunch ℂ)

/-- a kernel over all cells that writes `f p` -/
def fillM (dim : Nat) (f : U64 × U64 → ℂ) : MLaunch ℂ := pairFor dim dim fun i j => store (i, j) (f (i, j))

/-- a kernel over all cells that replaces the value `a` by `f p a` -/
def elementwiseM (dim : Nat) (f : U64 × U64 → ℂ → ℂ) : MLaunch ℂ := pairFor dim dim fun i j => do
  let a ← load (i, j)
  store (i, j) (f (i, j) a)

/-- a write of one cell from the host (`Kokkos::deep_copy` to a subview, /repo/src/state/density_matrix.cpp:55) -/
def pokeM (p : U64 × U64) (z : ℂ) : MLaunch ℂ := ⟨1, fun _ => store p z⟩

/-- `_raw(i, j)` read in a kernel -/
def readM (dim : Nat) (raw : U64 × U64 → ℂ) (p : U64 × U64) : Res ℂ :=
  if p.1.toNat < dim ∧ p.2.toNat < dim then .ok (raw p) else .error (.ub "_raw index out of range")

/-- /repo/src/state/density_matrix.cpp:223-232 `get_trace`. -/
noncomputable def DM.trace (d : DM) : Res ℂ := reduceSum (2 ^ d.n) fun i => readM (2 ^ d.n) d.raw (i, i)

/-- The operations that change a density matrix. -/
inductive DMOp where
  | setZeroState
  | setZeroNormState
  | setBasis (basis : Nat)
  | setCoherence (row col : Nat) (c : ℂ)
  | setCoherencePair (row col : Nat) (c : ℂ)
  | loadVector (n : Nat) (ψ : U64 → ℂ)
  | loadDM (other : DM)
  | loadMatrix (rows cols : Nat) (entry : U64 × U64 → ℂ) (isHermitian : Bool)
  | forceHermitian
  | normalize
  | addWithCoef (coef : ℂ) (other : DM)
  | multiplyCoef (coef : ℂ)
  | gate (g : UGate)

/-- One call.
* `set_zero_state` /repo/src/state/density_matrix.cpp:184-192, `set_zero_norm_state` 194-198, `set_computational_basis` 200-214
* `set_coherence_at` 45-57: the flag survives only a real diagonal value
* `set_coherence_pair_at` 59-74: the flag is not touched
* `load(StateVector)` 147-163 (also the constructor 23-30 and `set_Haar_random_state` 216-221), `load(DensityMatrix)` 136-145
  (also `copy` 91-97), `load(ComplexMatrix, bool)` 115-134 (also the constructor from a view 15-21)
* `force_hermitian` /repo/include/scaluq/state/density_matrix.hpp:33
* `normalize` 285-294: a division by zero gives NaN in the code and is a fault here
* `add_density_matrix_with_coef` 469-487, `multiply_coef` 489-499
* gates: `UGate.updateDM`; no gate touches the flag. -/
noncomputable def DMOp.exec (d : DM) : DMOp → Res DMUpdate
  | .setZeroState => .ok ⟨true, [fillM (2 ^ d.n) fun p => if p.1 = 0 ∧ p.2 = 0 then 1 else 0]⟩
  | .setZeroNormState => .ok ⟨true, [fillM (2 ^ d.n) fun _ => 0]⟩
  | .setBasis basis =>
    if basis ≥ 2 ^ d.n then .error (.throw "DensityMatrix::set_computational_basis: Basis index is out of range.")
    else .ok ⟨true, [fillM (2 ^ d.n) fun p => if p.1 = BitVec.ofNat 64 basis ∧ p.2 = BitVec.ofNat 64 basis then 1 else 0]⟩
  | .setCoherence row col c =>
    if row ≥ 2 ^ d.n ∨ col ≥ 2 ^ d.n then
      .error (.throw "DensityMatrix::set_coherence_at: Row index or column index is out of range.")
    else .ok ⟨d.hermitian && (decide (row = col) && decide (c.im = 0)), [pokeM (BitVec.ofNat 64 row, BitVec.ofNat 64 col) c]⟩
  | .setCoherencePair row col c =>
    if row ≥ 2 ^ d.n ∨ col ≥ 2 ^ d.n then
      .error (.throw "DensityMatrix::set_coherence_pair_at: Row index or column index is out of range.")
    else .ok ⟨d.hermitian, pokeM (BitVec.ofNat 64 row, BitVec.ofNat 64 col) c ::
      (if row ≠ col then [pokeM (BitVec.ofNat 64 col, BitVec.ofNat 64 row) (conj c)] else [])⟩
  | .loadVector n ψ =>
    if n ≠ d.n then .error (.throw "DensityMatrix::load(const StateVector&): Input state vector size does not match density matrix size.")
    else .ok ⟨true, [fillM (2 ^ d.n) fun p => ψ p.1 * conj (ψ p.2)]⟩
  | .loadDM other =>
    if other.n ≠ d.n then .error (.throw "DensityMatrix::load(const DensityMatrix&): Input density matrix size does not match density matrix size.")
    else .ok ⟨other.hermitian, [fillM (2 ^ d.n) other.raw]⟩
  | .loadMatrix rows cols entry isHermitian =>
    if rows ≠ 2 ^ d.n ∨ cols ≠ 2 ^ d.n then
      .error (.throw "DensityMatrix::load(const ComplexMatrix&): Input matrix size does not match density matrix size.")
    else .ok ⟨isHermitian, [fillM (2 ^ d.n) entry]⟩
  | .forceHermitian => .ok ⟨true, []⟩
  | .normalize => do
    let trace ← d.trace
    if trace = 0 then .error (.ub "division by zero")
    else pure ⟨d.hermitian, [elementwiseM (2 ^ d.n) fun _ a => a / trace]⟩
  | .addWithCoef coef other =>
    if other.n ≠ d.n then .error (.throw "DensityMatrix::add_density_matrix_with_coef: Input density matrix size does not match density matrix size.")
    else .ok ⟨if other.hermitian = false ∨ coef.im ≠ 0 then false else d.hermitian,
      [elementwiseM (2 ^ d.n) fun p a => a + coef * other.raw p]⟩
  | .multiplyCoef coef =>
    .ok ⟨if coef.im ≠ 0 then false else d.hermitian, [elementwiseM (2 ^ d.n) fun _ a => a * coef]⟩
  | .gate g => do
    let l ← g.updateDM d.n
    pure ⟨d.hermitian, l⟩

/-- the call succeeds and, under every schedule, turns `d` into `d'` -/
def DM.Does (d : DM) (op : DMOp) (d' : DM) : Prop :=
  ∃ u, op.exec d = .ok u ∧ d'.n = d.n ∧ d'.hermitian = u.hermitian ∧ MRuns (2 ^ d.n) u.launches d.raw d'.raw

/-- the call throws; every check precedes the first change, so the object stays as it is -/
def DM.Throws (d : DM) (op : DMOp) : Prop := ∃ msg, op.exec d = .error (.throw msg)

/-! ## partial trace -/

/-- the inner reduction of one team (/repo/src/state/density_matrix.cpp:266-278); `mask` is `traced_out_mask` and `k` the
number of traced qubits -/
noncomputable def DM.ptSum (d : DM) (mask : U64) (k : Nat) (i j : U64) : Res ℂ :=
  reduceSum (2 ^ k) fun x => readM (2 ^ d.n) d.raw
    (insertZero i mask ||| insertZero x (~~~mask), insertZero j mask ||| insertZero x (~~~mask))

/-- a new object: size, flag and the kernels that fill its (uninitialised) buffer -/
structure DMNew where
  n : Nat
  hermitian : Bool
  launches : List (MLaunch ℂ)

/-- the league size of a Kokkos team policy is an `int`: a `std::uint64_t` given for it is converted modulo `2 ^ 32`; a negative
league size is a fault -/
def leagueSize (n : Nat) : Res Nat := if n % 2 ^ 32 < 2 ^ 31 then .ok (n % 2 ^ 32) else .error (.ub "negative league size")

/-- /repo/src/state/density_matrix.cpp:234-283 `get_partial_trace`.  A team of several threads stores its sum once per thread;
here once. -/
noncomputable def DM.partialTrace (d : DM) (qs : List Nat) : Res DMNew :=
  if qs = [] then .ok ⟨d.n, d.hermitian, [fillM (2 ^ d.n) d.raw]⟩
  else if ∃ q ∈ qs, q ≥ d.n then
    .error (.throw "DensityMatrix::get_partial_trace: Input vector for traced out qubits contains invalid qubit index.")
  else do
    let mask ← vectorToMask qs
    if popcount mask ≠ qs.length then
      .error (.throw "DensityMatrix::get_partial_trace: Input vector for traced out qubits contains duplicate indices.")
    else
      let remainingDim := 2 ^ d.n / 2 ^ qs.length
      let remainingQubits := d.n - qs.length
      let row (rank : Nat) : U64 := BitVec.ofNat 64 rank >>> remainingQubits
      let col (rank : Nat) : U64 := BitVec.ofNat 64 rank &&& BitVec.ofNat 64 (remainingDim - 1)
      do
        let league ← leagueSize (remainingDim * remainingDim)
        let sums ← (List.range league).mapM fun rank => d.ptSum mask qs.length (row rank) (col rank)
        pure ⟨remainingQubits, d.hermitian, [⟨sums.length, fun g => store (row g, col g) sums[g]⟩]⟩

/-- `get_partial_trace` may return `d'`: the fresh buffer may have any content, then the kernels run, under every schedule -/
def DM.PartialTraces (d : DM) (qs : List Nat) (d' : DM) : Prop :=
  ∃ r, d.partialTrace qs = .ok r ∧ d'.n = r.n ∧ d'.hermitian = r.hermitian ∧ ∃ fresh, MRuns (2 ^ r.n) r.launches fresh d'.raw

/-! ## reading -/

/-- /repo/src/state/density_matrix.cpp:32-43 `get_coherence_at`. -/
noncomputable def DM.coherence (d : DM) (row col : Nat) : Res ℂ :=
  if row ≥ 2 ^ d.n ∨ col ≥ 2 ^ d.n then
    .error (.throw "DensityMatrix::get_coherence_at: Row index or column index is out of range.")
  else readM (2 ^ d.n) d.raw (BitVec.ofNat 64 row, BitVec.ofNat 64 col)

/-- /repo/src/state/density_matrix.cpp:295-312 `get_purity`; the reduction over the pairs is one over rows of one over columns. -/
noncomputable def DM.purity (d : DM) : Res ℝ :=
  if d.hermitian = false then .error (.throw "DensityMatrix::get_purity: Purity is only defined for hermitian density matrices.")
  else reduceSum (2 ^ d.n) fun i => reduceSum (2 ^ d.n) fun j => do
    let z ← readM (2 ^ d.n) d.raw (i, j)
    pure (Complex.normSq z)

/-- `_raw(i, i).real()` -/
noncomputable def DM.diag (d : DM) (i : U64) : Res ℝ := do
  let z ← readM (2 ^ d.n) d.raw (i, i)
  pure z.re

/-- /repo/src/state/density_matrix.cpp:314-335 `get_zero_probability`. -/
noncomputable def DM.zeroProbability (d : DM) (q : Nat) : Res ℝ :=
  if q ≥ d.n then .error (.throw "DensityMatrix::get_zero_probability: Target qubit index is out of range.")
  else if d.hermitian = false then .error (.throw "DensityMatrix::get_zero_probability: Zero probability is only defined for hermitian density matrices.")
  else reduceSum ((2 ^ d.n) >>> 1) fun i => d.diag (insertZeroAt i q)

/-- /repo/src/state/density_matrix.cpp:337-384 `get_marginal_probability`; the loop over `measured_values` is the one of
`StateVector` (apart from the text of the exception). -/
noncomputable def DM.marginalProbability (d : DM) (measured : List Nat) : Res ℝ :=
  if measured.length ≠ d.n then .error (.throw "DensityMatrix::get_marginal_probability: Input vector size does not match number of qubits.")
  else if d.hermitian = false then .error (.throw "DensityMatrix::get_marginal_probability: Marginal probability is only defined for hermitian density matrices.")
  else do
    let targets ← measuredTargets 0 measured
    reduceSum ((2 ^ d.n) >>> targets.length) fun i => d.diag (insertValues i targets)

/-- /repo/src/state/density_matrix.cpp:448-467 `get_computational_basis_entropy`. -/
noncomputable def DM.entropy (d : DM) : Res ℝ :=
  if d.hermitian = false then .error (.throw "DensityMatrix::get_computational_basis_entropy: Computational basis entropy is only defined for hermitian density matrices.")
  else reduceSum (2 ^ d.n) fun i => do
    let prob ← d.diag i
    pure (if prob > 0 then -prob * Real.logb 2 prob else 0)

/-- /repo/src/state/density_matrix.cpp:394-403: `stacked_prob` of `sampling` -/
noncomputable def DM.stackedProb (d : DM) : List ℝ :=
  (List.range (2 ^ d.n)).scanl (fun acc i => acc + (d.raw (BitVec.ofNat 64 i, BitVec.ofNat 64 i)).re) 0

/-- /repo/src/state/density_matrix.cpp:386-446 `sampling` returns `final` when the random numbers are `rnd`; the loop is that
of `StateVector::sampling`. -/
def DM.Samples (d : DM) (count : Nat) (rnd : Nat → Nat → ℝ) (final : List Nat) : Prop :=
  d.hermitian = true ∧
  ∃ result, SampleLoop (2 ^ d.n) (fun _ : Nat => drawIndex d.stackedProb) (fun t => decide (t < count)) rnd 0 (List.range count)
    (fun _ => 0) result ∧ final = (List.range count).map result

end Verif.Model
