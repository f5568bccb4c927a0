import Mathlib.Data.Fintype.BigOperators
import Mathlib.Data.Real.Basic

/-! # Specification: probabilities of events under independent uniform draws -/

namespace Verif.Spec

open Classical in
/-- the probability of an event when `n` numbers below `K` are drawn independently and uniformly -/
noncomputable def chance {K n : Nat} (E : (Fin n → Fin K) → Prop) : ℝ :=
  ((Finset.univ : Finset (Fin n → Fin K)).filter E).card / (K : ℝ) ^ n

/-- the draws as an infinite sequence (zeros after the last one) -/
def drawn {K n : Nat} (x : Fin n → Fin K) (k : Nat) : Nat := if h : k < n then (x ⟨k, h⟩).val else 0

end Verif.Spec
