import Verif.Spec.Rounding

/-! # Specification: values computed by adding up contributions in floating-point arithmetic -/

namespace Verif.Spec
open Verif Verif.Model

/-- Adding zero is exact, as in the IEEE formats. -/
structure AddZero {F : Type} [Add F] (val : F → ℝ) (Ω : ℝ) : Prop where
  left : ∀ x y, val x = 0 → |val y| ≤ Ω → val (x + y) = val y
  right : ∀ x y, val y = 0 → |val x| ≤ Ω → val (x + y) = val x

/-- the error bound of a sum of products over `N` work items whose magnitudes add up to `P` -/
noncomputable def sumErr (u η : ℝ) (N : Nat) (P : ℝ) : ℝ := ((1 + u) ^ (N + 1) - 1) * P + 2 * N * η * (1 + u) ^ N

/-- the error bound of an expectation value of `T` terms, with `N` work items each, coefficients with sum of magnitudes `C`, and squared
norm `S` of the state -/
noncomputable def expErr (u η : ℝ) (T N : Nat) (C S : ℝ) : ℝ :=
  ((1 + u) ^ (T * N + 7) - 1) * (C * S) + 100 * N * η * (T + C) * (1 + u) ^ (T * N)

end Verif.Spec
