import Verif.Model.Float
import Verif.Spec.Algebra

/-!
# Specification of floating-point accuracy

`Accurate` says what is assumed about the arithmetic of a type `F`: each operation returns the exact result up to a
relative error `u` (the unit roundoff) and, where underflow is possible, an absolute error `η`.  The laws are required
only of operands of magnitude at most `64` (`Ω` for the addition), so they hold for the IEEE formats with their finite
range, infinities and NaN (whose `val` may be any huge numbers of opposite sign); that the operands do stay below
these limits is part of what is proved.  `val` gives the real number meant by an element of `F`.
-/

namespace Verif.Spec
open Verif Verif.Model

variable {F : Type}

/-- the complex number meant by a pair of floating-point numbers -/
def cval (val : F → ℝ) (z : Cx F) : ℂ := ⟨val z.re, val z.im⟩

variable [Zero F] [One F] [Add F] [Sub F] [Mul F] [Neg F]

/-- The standard model of floating-point arithmetic: unit roundoff `u`, underflow threshold `η`, error `w` of the
library functions `cos` and `sin`, and a number `Ω` below which sums do not overflow. -/
structure Accurate (lib : FloatLib F) (val : F → ℝ) (u w η Ω : ℝ) : Prop where
  big : 64 ≤ Ω
  u_nonneg : 0 ≤ u
  w_nonneg : 0 ≤ w
  eta_nonneg : 0 ≤ η
  zero : val 0 = 0
  one : val 1 = 1
  neg : ∀ x, val (-x) = -val x
  add : ∀ x y, |val x| ≤ Ω → |val y| ≤ Ω → |val (x + y) - (val x + val y)| ≤ u * |val x + val y|
  sub : ∀ x y, |val x| ≤ 64 → |val y| ≤ 64 → |val (x - y) - (val x - val y)| ≤ u * |val x - val y|
  mul : ∀ x y, |val x| ≤ 64 → |val y| ≤ 64 → |val (x * y) - val x * val y| ≤ u * |val x * val y| + η
  mul_zero : ∀ x y, val x = 0 ∨ val y = 0 → |val x| ≤ 64 → |val y| ≤ 64 → val (x * y) = 0
  cast : ∀ r : ℝ, |r| ≤ 64 → |val (lib.cast r) - r| ≤ u * |r| + η
  cast_zero : val (lib.cast 0) = 0
  half : ∀ x, |val x| ≤ 64 → |val (lib.half x) - val x / 2| ≤ η
  half_zero : ∀ x, val x = 0 → val (lib.half x) = 0
  cos : ∀ x, |val x| ≤ 64 → |val (lib.cos x) - Real.cos (val x)| ≤ w
  sin : ∀ x, |val x| ≤ 64 → |val (lib.sin x) - Real.sin (val x)| ≤ w
  exp_zero : ∀ x, val x = 0 → val (lib.exp x) = 1
  cosh_zero : ∀ x, val x = 0 → val (lib.cosh x) = 1
  sinh_zero : ∀ x, val x = 0 → val (lib.sinh x) = 0

/-- the angles of a one-qubit gate -/
noncomputable def angles1 : Gate1 → List ℝ
  | .RX a => [a]
  | .RY a => [a]
  | .RZ a => [a]
  | .U1 a => [a]
  | .U2 a b => [Real.pi / 2, a, b]
  | .U3 a b c => [a, b, c]
  | _ => []

/-- the angles of a gate -/
noncomputable def angles : GateDesc → List ℝ
  | .globalPhase a _ _ => [a]
  | .one k _ _ _ => angles1 k
  | .pauliRot _ a _ _ => [a]
  | _ => []

/-- The gates covered by the error bounds: all but matrices with entries greater than one, Pauli operators with
coefficients greater than one and Pauli rotations with complex or greater coefficients.  (The matrix elements of unitary
operators are at most one.) -/
def Covered : GateDesc → Prop
  | .dense _ M _ _ _ => ∀ i j, i < M.rows → j < M.cols → ‖M.entry i j‖ ≤ 1
  | .sparse _ M _ _ => ∀ i j, ‖M.toDense.entry i j‖ ≤ 1
  | .pauli p _ _ => ‖p.coef‖ ≤ 1
  | .pauliRot p _ _ _ => p.coef.im = 0 ∧ |p.coef.re| ≤ 1
  | _ => True

/-- how many terms are summed for an amplitude by the kernels for matrices of any size; `1` for the other kernels -/
def terms : GateDesc → ℝ
  | .dense ts _ _ _ _ => if ts.length ≤ 2 then 1 else 2 ^ ts.length
  | .sparse ts _ _ _ => 2 ^ ts.length
  | _ => 1

/-- The laws of the sign and of commutativity that hold exactly in the IEEE formats. -/
structure SignLaws (F : Type) [Add F] [Sub F] [Mul F] [Neg F] : Prop where
  sub_eq : ∀ x y : F, x - y = x + -y
  mul_neg : ∀ x y : F, x * -y = -(x * y)
  mul_comm : ∀ x y : F, x * y = y * x
  add_comm : ∀ x y : F, x + y = y + x

end Verif.Spec
