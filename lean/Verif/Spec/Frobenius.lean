import Verif.Spec.Density
import Mathlib.Analysis.SpecialFunctions.Pow.NNReal

/-! # Specification: size of a matrix -/

namespace Verif.Spec

/-- the Frobenius norm: the root of the sum of the squared absolute values of the elements -/
noncomputable def frob (dim : Nat) (M : BitVec 64 × BitVec 64 → ℂ) : ℝ :=
  √(∑ r ∈ Finset.range dim, ∑ c ∈ Finset.range dim, ‖M (BitVec.ofNat 64 r, BitVec.ofNat 64 c)‖ ^ 2)

end Verif.Spec
