import Verif.Model.Float
import Verif.Model.Operator

/-!
# How the matrix of a dense gate is stored and read back

The conversions between `ComplexMatrix` (double, Eigen) and the matrices of gates in the precision of the gate: the constructor of
`DenseMatrixGateImpl` (/repo/src/gate/gate_matrix.cpp:6-37), `get_inverse` (38-50), `get_matrix_internal` (51-77), `get_matrix` (78-99), and
`convert_external_matrix_to_internal_matrix`, `convert_internal_matrix_to_external_matrix` (/repo/src/util/utility.cpp:6-67).  Both kinds of matrices
are flat arrays with a layout.  The numbers of the external matrix are the real numbers they denote; rounding to `Float<Prec>` is `lib.cast`, the
conversion back to double is exact and given by `val`.  `Kokkos::deep_copy` between views of the same extents copies every element, so the copy
between host and device is left out, and so is the branch for `Precision::F64`, which copies without rounding (there `lib.cast` gives back every
double).
-/

namespace Verif.Model
open Verif
open Verif.Prog (store)

/-- `ComplexMatrix`, row-major (/repo/include/scaluq/type/eigen_types.hpp:200-201): element `(r, c)` is at `r * cols + c`. -/
structure ExtMat where
  rows : Nat
  cols : Nat
  data : Nat → ℂ

/-- `eigen_matrix(r, c)`; outside the matrix undefined behaviour (/repo/src/util/utility.cpp:31) -/
def ExtMat.at (M : ExtMat) (r c : Nat) : Res ℂ :=
  if r < M.rows ∧ c < M.cols then .ok (M.data (r * M.cols + c)) else .error (.ub "eigen_matrix(r, c) out of range")

/-- `Matrix<Prec, Space>`, a view with `LayoutRight` (/repo/include/scaluq/types.hpp:54-55) -/
structure MatView (R : Type) where
  rows : Nat
  cols : Nat
  mem : Nat → R

/-- `_matrix` of a dense gate, `MatrixVariant` (/repo/include/scaluq/gate/gate_matrix.hpp:15-16) -/
inductive Stored (R : Type)
  | scalar (z : R)
  | two (m : Fin 2 → Fin 2 → R)
  | four (m : Fin 4 → Fin 4 → R)
  | view (v : MatView R)

/-- the element a kernel reads: `matrix`, `matrix[r][c]` or `matrix(r, c)` (/repo/src/gate/gate_matrix.cpp:110-140) -/
def Stored.entry {R : Type} : Stored R → Nat → Nat → Res R
  | .scalar z, r, c => if r = 0 ∧ c = 0 then .ok z else .error (.ub "matrix index out of range")
  | .two m, r, c => if h : r < 2 ∧ c < 2 then .ok (m ⟨r, h.1⟩ ⟨c, h.2⟩) else .error (.ub "matrix index out of range")
  | .four m, r, c => if h : r < 4 ∧ c < 4 then .ok (m ⟨r, h.1⟩ ⟨c, h.2⟩) else .error (.ub "matrix index out of range")
  | .view v, r, c => if r < v.rows ∧ c < v.cols then .ok (v.mem (r * v.cols + c)) else .error (.ub "matrix index out of range")

/-- the argument of a lambda with a parameter of type `std::uint32_t` -/
def toU32 (x : Nat) : Nat := x % 2 ^ 32

section
variable {F : Type} (lib : FloatLib F)

/-- rounding of both parts: `Complex<Prec>(static_cast<Float<Prec>>(z.real()), static_cast<Float<Prec>>(z.imag()))`
(/repo/src/gate/gate_matrix.cpp:13-14) -/
def narrowC (z : ℂ) : Cx F := ⟨lib.cast z.re, lib.cast z.im⟩

/-- the loop of /repo/src/util/utility.cpp:26-33 -/
def narrowPool (M : ExtMat) : Pool (Fin M.rows × Fin M.cols) Nat (Cx F) := fun w =>
  store (toU32 w.1 * M.cols + toU32 w.2) (narrowC lib (M.data (toU32 w.1 * M.cols + toU32 w.2)))

/-- /repo/src/util/utility.cpp:6-40 `convert_external_matrix_to_internal_matrix`: the possible results -/
def ToInternalF (M : ExtMat) (v : MatView (Cx F)) : Prop :=
  v.rows = M.rows ∧ v.cols = M.cols ∧ ∃ m, Runs (fun a => a < M.rows * M.cols) (narrowPool lib M) m v.mem

/-- /repo/src/gate/gate_matrix.cpp:6-37, the constructor -/
def StoresF (M : ExtMat) (s : Stored (Cx F)) : Prop :=
  if M.rows = 1 ∧ M.cols = 1 then s = .scalar (narrowC lib (M.data 0))
  else if M.rows = 2 ∧ M.cols = 2 then s = .two fun i j => narrowC lib (M.data (i * M.cols + j))
  else if M.rows = 4 ∧ M.cols = 4 then s = .four fun i j => narrowC lib (M.data (i * M.cols + j))
  else ∃ v, ToInternalF lib M v ∧ s = .view v

variable (val : F → ℝ)

/-- `static_cast<StdComplex>(z)` (/repo/src/gate/gate_matrix.cpp:86) -/
def widenC (z : Cx F) : ℂ := ⟨val z.re, val z.im⟩

/-- the loop of /repo/src/util/utility.cpp:55-61 -/
def widenPool (v : MatView (Cx F)) (rows cols : Nat) : Pool (Fin rows × Fin cols) Nat ℂ := fun w =>
  store (w.1 * cols + w.2) (widenC val (v.mem (w.1 * v.cols + w.2)))

/-- /repo/src/util/utility.cpp:42-67 `convert_internal_matrix_to_external_matrix`: the extents go through `int` -/
def ToExternalF (v : MatView (Cx F)) (N : ExtMat) : Prop :=
  N.rows = (toInt32 v.rows).toNat ∧ N.cols = (toInt32 v.cols).toNat ∧
    ∃ m, Runs (fun a => a < N.rows * N.cols) (widenPool val v N.rows N.cols) m N.data

/-- /repo/src/gate/gate_matrix.cpp:78-99 `get_matrix` -/
def GetMatrixF : Stored (Cx F) → ExtMat → Prop
  | .scalar z, N => N.rows = 1 ∧ N.cols = 1 ∧ N.data 0 = widenC val z
  | .two m, N => N.rows = 2 ∧ N.cols = 2 ∧ ∀ i j : Fin 2, N.data (i * 2 + j) = widenC val (m i j)
  | .four m, N => N.rows = 4 ∧ N.cols = 4 ∧ ∀ i j : Fin 4, N.data (i * 4 + j) = widenC val (m i j)
  | .view v, N => ToExternalF val v N

/-- /repo/src/gate/gate_matrix.cpp:51-77 `get_matrix_internal`: a copy of the view, or the external matrix converted -/
def GetInternalF (s : Stored (Cx F)) (v : MatView (Cx F)) : Prop :=
  match s with
  | .view w => v.rows = w.rows ∧ v.cols = w.cols ∧ ∀ a < w.rows * w.cols, v.mem a = w.mem a
  | s => ∃ N, GetMatrixF val s N ∧ ToInternalF lib N v

/-- `mat_eigen.adjoint()` (/repo/src/gate/gate_matrix.cpp:43), element `(r, c)` is the conjugate of `(c, r)` -/
noncomputable def ExtMat.adjoint (M : ExtMat) : ExtMat :=
  ⟨M.cols, M.rows, fun a => (starRingEnd ℂ) (M.data ((a % M.rows) * M.cols + a / M.rows))⟩

/-- /repo/src/gate/gate_matrix.cpp:38-50 `get_inverse`: the matrix of a gate marked unitary is read, transposed and conjugated in double precision, and
stored again; other gates throw -/
def InverseF (isUnitary : Bool) (s : Stored (Cx F)) (out : Res (Stored (Cx F))) : Prop :=
  if isUnitary then ∃ N s', GetMatrixF val s N ∧ StoresF lib N.adjoint s' ∧ out = .ok s'
  else out = .error (.throw "inverse of non-unitary matrix gate is currently not available.")

end

end Verif.Model
