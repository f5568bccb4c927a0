import Verif.Spec.Reduction

/-! # Error bounds for transition amplitudes in floating-point arithmetic -/

namespace Verif.Spec

/-- the error bound of a transition amplitude of an operator of `T` terms, with `N` work items each, coefficients with sum of magnitudes `C`,
and sum `S` of the squared norms of the two states -/
noncomputable def transErr (u η : ℝ) (T N : Nat) (C S : ℝ) : ℝ :=
  ((1 + u) ^ (T * N + 8) - 1) * (C * S) + 240 * N * η * (T + C) * (1 + u) ^ (T * N)

/-- the error bound of an expectation value or transition amplitude of a Pauli operator with coefficient of magnitude `C`: a sum of at most `N`
contributions, whose magnitudes add up to at most `S`, times the coefficient -/
noncomputable def pauliErr (u η : ℝ) (N : Nat) (C S : ℝ) : ℝ :=
  ((1 + u) ^ (N + 8) - 1) * (C * S) + 100 * (N + 1) * η * (1 + C) * (1 + S) * (1 + u) ^ (N + 9)

end Verif.Spec
