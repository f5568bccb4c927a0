import Mathlib.Data.List.Chain

/-! # Specification: depth

`qs` are the qubit sets of the gates, in order. -/

namespace Verif.Spec

/-- some of the gates, in order; each acts on a qubit and shares one with the next -/
structure IsGateChain (qs c : List (List Nat)) : Prop where
  sub : c.Sublist qs
  nonempty : ∀ a ∈ c, a ≠ []
  linked : c.IsChain fun a b => ∃ q, q ∈ a ∧ q ∈ b

/-- the length of a longest chain -/
structure IsDepth (qs : List (List Nat)) (d : Nat) : Prop where
  attained : ∃ c, IsGateChain qs c ∧ c.length = d
  bound : ∀ c, IsGateChain qs c → c.length ≤ d

end Verif.Spec
