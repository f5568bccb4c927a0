import Verif.Spec.Reduction
import Verif.Model.FloatEntropy

/-! # Specification: entropies computed in floating-point arithmetic -/

namespace Verif.Spec
open Verif Verif.Model

/-- the contribution `p log₂ (1/p)` of an outcome of probability `p` to the entropy -/
noncomputable def plogp (p : ℝ) : ℝ := if 0 < p then p * Real.logb 2 (1 / p) else 0

/-- Accuracy of the comparison (exact), of `log2` (relative error `ℓ`) and of the product `-x * log2 x`, which the laws of `Accurate` do
not cover where the logarithm is large. -/
structure EntropyAccurate {F : Type} [Mul F] [Neg F] (E : EntropyLib F) (val : F → ℝ) (u η ℓ : ℝ) : Prop where
  gt : ∀ x y, |val x| ≤ 64 → |val y| ≤ 64 → (E.gt x y = true ↔ val x > val y)
  nonneg : 0 ≤ ℓ
  log2 : ∀ x, 0 < val x → val x ≤ 64 → |val (E.log2 x) - Real.logb 2 (val x)| ≤ ℓ * |Real.logb 2 (val x)|
  prod : ∀ x, 0 < val x → val x ≤ 64 →
    |val (-x * E.log2 x) - -(val x * val (E.log2 x))| ≤ u * |val x * val (E.log2 x)| + η

/-- the error of the contributions to an entropy: `P` is the sum of the probabilities, `M` the sum of the magnitudes of the
contributions, `N` their number, and `d` the absolute error of the probabilities -/
noncomputable def termErr (u ℓ d : ℝ) (N : Nat) (P M : ℝ) : ℝ := (5 * u + ℓ) * M + 14 * u * P + 2 * N * (plogp d + 6 * d)

/-- the error of an entropy: that of the contributions and that of their sum -/
noncomputable def entErr (u ℓ d : ℝ) (N : Nat) (P M : ℝ) : ℝ :=
  ((1 + u) ^ N - 1) * (M + termErr u ℓ d N P M) + termErr u ℓ d N P M

/-- The laws of the special values of the IEEE formats used here. -/
structure SpecialValues {F : Type} [Zero F] [Add F] [Mul F] [Neg F] (E : EntropyLib F) (isNaN isZero : F → Prop) : Prop where
  add_left : ∀ x y : F, isNaN x → isNaN (x + y)
  add_right : ∀ x y : F, isNaN y → isNaN (x + y)
  log2_zero : ∀ x : F, isZero x → isNaN (-x * E.log2 x)

end Verif.Spec
