import Verif.Model.UGate
import Verif.Model.Density

/-!
# The number of teams of the matrix kernels

The kernels of dense gates on three or more qubits and of sparse gates are launched with a Kokkos `TeamPolicy`.  Its first
argument, the league size, is an `int`; the code gives it a `std::uint64_t`.  `Model/Dense` leaves the conversion out; here the
two kernels and `update_quantum_state` are given again with it.
-/

namespace Verif.Model
open Verif
open Verif.Prog (load store)
variable {R : Type}

/-- /repo/src/gate/update_ops_matrix.cpp:236-260 and 292-317: the update kernel for a league of `teams` teams. -/
def outOfPlaceTeams [Zero R] [Add R] [Mul R] (n : Nat) (t c v : U64) (nRows : Nat)
    (rows : Fin nRows → List (R × Nat)) (teams : Nat) : Pool (Fin teams × Fin nRows) (Bool × U64) R :=
  fun (rank, r) => do
    let basis := insertZero (BitVec.ofNat 64 rank.val) (t ||| c) ||| v
    let dst := insertZero (BitVec.ofNat 64 r.val) (outerMask t n) ||| basis
    let sum ← accumulate ((rows r).map fun (z, col) =>
      (z, (false, insertZero (BitVec.ofNat 64 col) (outerMask t n) ||| basis))) 0
    store (true, dst) sum

/-- /repo/src/gate/update_ops_matrix.cpp:208-263 `multi_dense_matrix_gate`; the league size (lines 238-240) is
`state.flat_dim() >> std::popcount(target_mask | control_mask)`, converted to `int`. -/
def multiDenseLeague [Zero R] [Add R] [Mul R] (n : Nat) (t c v : U64) (M : Nat → Nat → R) (dim : Nat) : Res (Device R) := do
  let matrixDim := 2 ^ popcount t
  let teams ← leagueSize (workItems dim (t ||| c))
  pure (.outOfPlace dim teams matrixDim (outOfPlaceInit c v dim)
    (outOfPlaceTeams n t c v matrixDim (fun r => (List.range matrixDim).map fun s => (M r.val s, s)) teams))

/-- /repo/src/gate/update_ops_matrix.cpp:265-320 `sparse_matrix_gate`; league size in lines 294-296. -/
def sparseKernelLeague [Zero R] [Add R] [Mul R] (n : Nat) (t c v : U64) (m : Csr R) (dim : Nat) : Res (Device R) := do
  let teams ← leagueSize (workItems dim (t ||| c))
  let rows ← (List.range m.rows).mapM m.row
  pure (.outOfPlace dim teams rows.length (outOfPlaceInit c v dim)
    (outOfPlaceTeams n t c v rows.length (fun r => rows[r.val]) teams))

/-- /repo/src/gate/gate_matrix.cpp:6-37 and 103-146, as `denseUpdate`. -/
noncomputable def denseUpdateLeague (L B n : Nat) (M : DMat ℂ) (o : Operands) : Res (Device ℂ) := do
  checkWithinBounds o n
  if M.rows = 1 ∧ M.cols = 1 then
    pure (zeroTarget L n o.c o.v (M.entry 0 0) (B * 2 ^ n))
  else if M.rows = 2 ∧ M.cols = 2 then
    pure (dense1 L n o.t o.c o.v ⟨M.entry 0 0, M.entry 0 1, M.entry 1 0, M.entry 1 1⟩ (B * 2 ^ n))
  else if M.rows = 4 ∧ M.cols = 4 then
    pure (.par _ (dense2 o.t o.c o.v (fun i j => M.entry i j) (B * 2 ^ n)))
  else if 2 ^ popcount o.t ≤ M.rows ∧ 2 ^ popcount o.t ≤ M.cols then
    multiDenseLeague n o.t o.c o.v M.entry (B * 2 ^ n)
  else .error (.ub "matrix(r, c) out of range")

/-- /repo/src/gate/gate_matrix.cpp:205-222, as `sparseUpdate`. -/
def sparseUpdateLeague (B n : Nat) (m : Csr ℂ) (o : Operands) : Res (Device ℂ) := do
  checkWithinBounds o n
  sparseKernelLeague n o.t o.c o.v m (B * 2 ^ n)

/-- `update_quantum_state` of every class, as `UGate.update`, with the conversion of the league size; only the kernels of
/repo/src/gate/update_ops_matrix.cpp:236-241 and 292-297 have a league that depends on the number of amplitudes. -/
noncomputable def UGate.updateLeague (L B n : Nat) : UGate → Res (Device ℂ)
  | .dense g => denseUpdateLeague L B n g.mat g.o
  | .sparse g => sparseUpdateLeague B n g.mat g.o
  | g => g.update L B n

end Verif.Model
