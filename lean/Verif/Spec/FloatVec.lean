import Verif.Spec.Reduction
import Verif.Model.FloatVec
import Verif.Spec.Binary64

/-! # Specification of division and square root in floating-point arithmetic -/

namespace Verif.Spec
open Verif Verif.Model

/-- Division and square root are rounded as the other operations (`Accurate`): relative error `u`, and for quotients that may
underflow an absolute error `η`. -/
structure DivAccurate {F : Type} (E : DivLib F) (val : F → ℝ) (u η Ω : ℝ) : Prop where
  div : ∀ x y, |val x| ≤ 64 → val y ≠ 0 → |val x / val y| ≤ 64 → |val (E.div x y) - val x / val y| ≤ u * |val x / val y| + η
  sqrt : ∀ x, 0 ≤ val x → val x ≤ Ω → |val (E.sqrt x) - √(val x)| ≤ u * √(val x)

/-- correctly rounded division and square root of 53-bit numbers -/
noncomputable def Bin.divLib : DivLib Bin := ⟨fun x y => near (x.val / y.val), fun x => near (√x.val)⟩

end Verif.Spec
