import Verif.Core.Bits
import Mathlib.Analysis.InnerProductSpace.PiL2
import Mathlib.Probability.Distributions.Gaussian.Real
import Mathlib.Probability.Independence.Basic

/-! # Specification: Haar random states -/

namespace Verif.Spec
open MeasureTheory ProbabilityTheory

/-- the space of the state vectors of `n` qubits -/
abbrev Amplitudes (n : Nat) := EuclideanSpace ℂ (Fin (2 ^ n))

/-- the amplitudes of a state of `n` qubits -/
noncomputable def amplitudes (n : Nat) (ψ : BitVec 64 → ℂ) : Amplitudes n := WithLp.toLp 2 fun i => ψ (BitVec.ofNat 64 i.val)

/-- a distribution of unit vectors that no unitary transformation changes -/
structure IsHaar (n : Nat) (ν : Measure (Amplitudes n)) : Prop where
  prob : IsProbabilityMeasure ν
  unit : ∀ᵐ x ∂ν, ‖x‖ = 1
  invariant : ∀ U : Amplitudes n ≃ₗᵢ[ℂ] Amplitudes n, ν.map U = ν

/-- independent random numbers with the standard normal distribution -/
structure NormalDraws {Ω ι : Type*} [MeasurableSpace Ω] (μ : Measure Ω) (g : ι → Ω → ℝ) : Prop where
  meas : ∀ i, Measurable (g i)
  indep : iIndepFun g μ
  law : ∀ i, μ.map (g i) = gaussianReal 0 1

end Verif.Spec
