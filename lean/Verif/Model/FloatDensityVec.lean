import Verif.Model.FloatDensityRead
import Verif.Model.FloatVec

/-!
# Making and combining density matrices in floating-point arithmetic

`load(StateVector)`, `multiply_coef`, `add_density_matrix_with_coef` and `normalize` of /repo/src/state/density_matrix.cpp, with the
arithmetic of the type `F` left open.
-/

namespace Verif.Model
open Verif
open Verif.Prog

section
variable {R F : Type} [Cplx R F] [Zero F] [Add F] [Sub F] [Mul F] [Neg F] [Zero R] [Add R] [Mul R] (lib : FloatLib F) (E : DivLib F)

/-- a kernel over all cells, as `elementwiseM` (e.g. /repo/src/state/density_matrix.cpp:288-292) -/
def elementwiseMF (dim : Nat) (f : U64 × U64 → R → R) : MLaunch R := pairFor dim dim fun i j => do
  let a ← load (i, j)
  store (i, j) (f (i, j) a)

/-- /repo/src/state/density_matrix.cpp:147-163 `load(StateVector)` of a state of `n'` qubits: `other._raw(i) * conj(other._raw(j))` -/
def loadVectorMF (n n' : Nat) (ψ : U64 → R) : Res (List (MLaunch R)) :=
  if n' ≠ n then .error (.throw "DensityMatrix::load(const StateVector&): Input state vector size does not match density matrix size.")
  else .ok [pairFor (2 ^ n) (2 ^ n) fun i j => store (i, j) (ψ i * conjC (F := F) (ψ j))]

/-- /repo/src/state/density_matrix.cpp:469-487 `add_density_matrix_with_coef` with a matrix of `n'` qubits -/
def addWithCoefMF (n n' : Nat) (c : ℂ) (other : U64 × U64 → R) : Res (List (MLaunch R)) :=
  if n' ≠ n then .error (.throw "DensityMatrix::add_density_matrix_with_coef: Input density matrix size does not match density matrix size.")
  else .ok [elementwiseMF (2 ^ n) fun p a => a + castC lib c * other p]

/-- /repo/src/state/density_matrix.cpp:489-499 `multiply_coef` -/
def multiplyCoefMF (n : Nat) (c : ℂ) : List (MLaunch R) := [elementwiseMF (2 ^ n) fun _ a => a * castC lib c]

/-- `Complex::operator/=(const Complex& rhs)`, /repo/include/scaluq/type/complex.hpp:112-119 -/
def quotC (z t : R) : R :=
  let denominator := Cplx.re t * Cplx.re t + Cplx.im t * Cplx.im t
  let realPart := Cplx.re z * Cplx.re t + Cplx.im z * Cplx.im t
  let imagPart := Cplx.im z * Cplx.re t - Cplx.re z * Cplx.im t
  Cplx.ofParts (E.div realPart denominator) (E.div imagPart denominator)

/-- /repo/src/state/density_matrix.cpp:285-294 `normalize`: the trace, with the additions in any order, then one kernel.  (The
conversion of the trace to `double` and back is exact.) -/
def NormalizesMF (n : Nat) (M M' : U64 × U64 → R) : Prop :=
  ∃ t, TraceF n M (.ok t) ∧ MRuns (2 ^ n) [elementwiseMF (2 ^ n) fun _ a => quotC E a t] M M'

end

end Verif.Model
