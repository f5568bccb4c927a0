import Mathlib.Analysis.SpecialFunctions.Exponential
import Mathlib.Topology.Algebra.InfiniteSum.Basic
import Verif.Spec.Algebra
import Verif.Spec.Circuit

/-! # Specification: exponentials of operators -/

namespace Verif.Spec
open Verif Verif.Model

/-- `φ = exp(z A) ψ` on the amplitudes of `n` qubits: the exponential series converges to it amplitude by amplitude -/
def IsExp (n : Nat) (z : ℂ) (A : (U64 → ℂ) → U64 → ℂ) (ψ φ : U64 → ℂ) : Prop :=
  ∀ j : U64, j.toNat < 2 ^ n → HasSum (fun k : ℕ => z ^ k / (k.factorial : ℂ) * (A^[k] ψ) j) (φ j)

/-- the two operators commute on the states of `n` qubits -/
def CommuteOn (n : Nat) (A B : (U64 → ℂ) → U64 → ℂ) : Prop := ∀ ψ, ∀ j : U64, j.toNat < 2 ^ n → A (B ψ) j = B (A ψ) j

/-- `r` times: a Pauli rotation by `angle / r` for every term, in order -/
noncomputable def trotterLines (ts : List PauliOp) (angle : ℝ) (r : Nat) : List Line :=
  (List.replicate r (ts.map fun p => (⟨.gate (.pauliRot p (angle / r) [] []), none⟩ : Line))).flatten

end Verif.Spec
