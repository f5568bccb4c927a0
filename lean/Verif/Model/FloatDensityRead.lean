import Verif.Model.FloatReduce
import Verif.Model.Density

/-!
# Reading density matrices in floating-point arithmetic

Traces, probabilities, the purity and partial traces of /repo/src/state/density_matrix.cpp with the arithmetic and the order of the
additions left open, as in `Verif.Model.FloatReduce`.
-/

namespace Verif.Model
open Verif

section
variable {R F : Type} [Cplx R F] [Zero F] [Add F] [Mul F] [Zero R] [Add R]

/-- `_raw(i, j)` read in a kernel, as `readM` (e.g. /repo/src/state/density_matrix.cpp:229) -/
def readMF (dim : Nat) (raw : U64 × U64 → R) (p : U64 × U64) : Res R :=
  if p.1.toNat < dim ∧ p.2.toNat < dim then .ok (raw p) else .error (.ub "_raw index out of range")

/-- /repo/src/state/density_matrix.cpp:223-232 `get_trace`. -/
def TraceF (n : Nat) (raw : U64 × U64 → R) : Res R → Prop := RangeReduction (2 ^ n) fun i => readMF (2 ^ n) raw (i, i)

/-- `_raw(basis, basis).real()` (/repo/src/state/density_matrix.cpp:331, 379) -/
def diagF (dim : Nat) (raw : U64 × U64 → R) (i : U64) : Res F := do
  let z ← readMF dim raw (i, i)
  pure (Cplx.re z)

/-- /repo/src/state/density_matrix.cpp:314-335 `get_zero_probability`; `hermitian` is `_is_hermitian`. -/
def ZeroProbabilityMF (n : Nat) (hermitian : Bool) (raw : U64 × U64 → R) (q : Nat) (r : Res F) : Prop :=
  if q ≥ n then r = .error (.throw "DensityMatrix::get_zero_probability: Target qubit index is out of range.")
  else if hermitian = false then
    r = .error (.throw "DensityMatrix::get_zero_probability: Zero probability is only defined for hermitian density matrices.")
  else RangeReduction ((2 ^ n) >>> 1) (fun i => diagF (2 ^ n) raw (insertZeroAt i q)) r

/-- /repo/src/state/density_matrix.cpp:337-384 `get_marginal_probability`. -/
def MarginalProbabilityMF (n : Nat) (hermitian : Bool) (raw : U64 × U64 → R) (measured : List Nat) (r : Res F) : Prop :=
  if measured.length ≠ n then
    r = .error (.throw "DensityMatrix::get_marginal_probability: Input vector size does not match number of qubits.")
  else if hermitian = false then
    r = .error (.throw "DensityMatrix::get_marginal_probability: Marginal probability is only defined for hermitian density matrices.")
  else match measuredTargets 0 measured with
    | .error e => r = .error e
    | .ok targets => RangeReduction ((2 ^ n) >>> targets.length) (fun i => diagF (2 ^ n) raw (insertValues i targets)) r

/-- /repo/src/state/density_matrix.cpp:295-312 `get_purity`: a reduction over all pairs of indices. -/
def PurityF (n : Nat) (hermitian : Bool) (raw : U64 × U64 → R) (r : Res F) : Prop :=
  if hermitian = false then r = .error (.throw "DensityMatrix::get_purity: Purity is only defined for hermitian density matrices.")
  else Reduction ((List.range (2 ^ n)).product (List.range (2 ^ n)))
    (fun p => do
      let z ← readMF (2 ^ n) raw (BitVec.ofNat 64 p.1, BitVec.ofNat 64 p.2)
      pure (squaredC z)) r

/-- the inner reduction of one team (/repo/src/state/density_matrix.cpp:266-278), as `DM.ptSum` -/
def PtSumF (n : Nat) (raw : U64 × U64 → R) (mask : U64) (k : Nat) (i j : U64) : Res R → Prop :=
  RangeReduction (2 ^ k) fun x => readMF (2 ^ n) raw
    (insertZero i mask ||| insertZero x (~~~mask), insertZero j mask ||| insertZero x (~~~mask))

/-- /repo/src/state/density_matrix.cpp:234-283 `get_partial_trace`: the number of qubits and the elements of the new matrix.  Every
team writes the outcome of its reduction to its own element; elements without team are not initialised, so anything. -/
def PartialTraceF (n : Nat) (raw : U64 × U64 → R) (qs : List Nat) (r : Res (Nat × (U64 × U64 → R))) : Prop :=
  if qs = [] then ∃ raw', (∀ p, p.1.toNat < 2 ^ n ∧ p.2.toNat < 2 ^ n → raw' p = raw p) ∧ r = .ok (n, raw')
  else if ∃ q ∈ qs, q ≥ n then
    r = .error (.throw "DensityMatrix::get_partial_trace: Input vector for traced out qubits contains invalid qubit index.")
  else match vectorToMask qs with
    | .error e => r = .error e
    | .ok mask =>
      if popcount mask ≠ qs.length then
        r = .error (.throw "DensityMatrix::get_partial_trace: Input vector for traced out qubits contains duplicate indices.")
      else
        let remainingDim := 2 ^ n / 2 ^ qs.length
        let remainingQubits := n - qs.length
        let row (rank : Nat) : U64 := BitVec.ofNat 64 rank >>> remainingQubits
        let col (rank : Nat) : U64 := BitVec.ofNat 64 rank &&& BitVec.ofNat 64 (remainingDim - 1)
        match leagueSize (remainingDim * remainingDim), r with
        | .error e, r => r = .error e
        | .ok league, .ok r => r.1 = remainingQubits ∧
            ∀ rank, rank < league → PtSumF n raw mask qs.length (row rank) (col rank) (.ok (r.2 (row rank, col rank)))
        | .ok league, .error e => ∃ rank, rank < league ∧ PtSumF n raw mask qs.length (row rank) (col rank) (.error e)

end

end Verif.Model
