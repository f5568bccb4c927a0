import Verif.Spec.Reduction

/-! # Specification: comparison and conversion of floating-point numbers, as used by `sampling` -/

namespace Verif.Spec
open Verif Verif.Model

/-- The comparison `>` compares the numbers meant, and the conversion of the numbers in `[0, 1]` preserves their order; both hold for the
IEEE formats with any rounding. -/
structure Compares {F : Type} (lib : FloatLib F) (gt : F → F → Bool) (val : F → ℝ) (Ω : ℝ) : Prop where
  gt : ∀ x y, |val x| ≤ Ω → |val y| ≤ Ω → (gt x y = true ↔ val y < val x)
  cast : ∀ r r' : ℝ, 0 ≤ r → r ≤ r' → r' ≤ 1 → val (lib.cast r) ≤ val (lib.cast r')

/-- the error of the borders of the intervals searched: that of the cumulative sums and that of the random number -/
noncomputable def drawErr (u η : ℝ) (N : Nat) (P : ℝ) : ℝ := sumErr u η N P + (u + η)

end Verif.Spec
