import Verif.Spec.Algebra

/-! # Specification: energies, eigenvectors and Krylov spaces -/

namespace Verif.Spec
open Verif

/-- the operator `A - μ` -/
noncomputable def shiftedBy (A : (U64 → ℂ) → U64 → ℂ) (μ : ℂ) (ψ : U64 → ℂ) : U64 → ℂ := fun j => A ψ j - μ * ψ j

/-- `v` is an eigenvector of `A` with eigenvalue `E`, on the amplitudes of `n` qubits -/
def IsEigen (n : Nat) (A : (U64 → ℂ) → U64 → ℂ) (E : ℂ) (v : U64 → ℂ) : Prop :=
  normSq (2 ^ n) v ≠ 0 ∧ ∀ j, j.toNat < 2 ^ n → A v j = E * v j

/-- no state has energy above `b` -/
def EnergyAtMost (n : Nat) (A : (U64 → ℂ) → U64 → ℂ) (b : ℝ) : Prop :=
  ∀ φ, (inner (2 ^ n) φ (A φ)).re ≤ b * normSq (2 ^ n) φ

/-- no state has energy below `b` -/
def EnergyAtLeast (n : Nat) (A : (U64 → ℂ) → U64 → ℂ) (b : ℝ) : Prop :=
  ∀ φ, b * normSq (2 ^ n) φ ≤ (inner (2 ^ n) φ (A φ)).re

/-- the combination `Σ aᵢ Aⁱ ψ`, `i < k` -/
noncomputable def krylov (A : (U64 → ℂ) → U64 → ℂ) (k : Nat) (a : Nat → ℂ) (ψ : U64 → ℂ) : U64 → ℂ :=
  fun j => ∑ i ∈ Finset.range k, a i * (A^[i] ψ) j

/-- one of the first `k` vectors `ψ, Aψ, A²ψ, …` is a combination of those before it -/
def KrylovDependent (n : Nat) (A : (U64 → ℂ) → U64 → ℂ) (k : Nat) (ψ : U64 → ℂ) : Prop :=
  ∃ i < k, ∃ a, ∀ j, j.toNat < 2 ^ n → (A^[i] ψ) j = krylov A i a ψ j

/-- what the eigenvalue solver is assumed to do with a `k × k` matrix `H`: `k` eigenvalues `vals`, column `c` of `X` is an eigenvector of
`vals[c]`, and no eigenvalue is missing -/
def EigenDecomposition (k : Nat) (H : Nat → Nat → ℂ) (vals : List ℂ) (X : Nat → Nat → ℂ) : Prop :=
  vals.length = k ∧
  (∀ c (hc : c < vals.length), (∃ r < k, X r c ≠ 0) ∧ ∀ r < k, ∑ i ∈ Finset.range k, H r i * X i c = vals[c] * X r c) ∧
  ∀ (θ : ℂ) (x : Nat → ℂ), (∃ r < k, x r ≠ 0) → (∀ r < k, ∑ i ∈ Finset.range k, H r i * x i = θ * x r) → θ ∈ vals

end Verif.Spec
