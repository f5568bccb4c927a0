import Verif.Spec.State
import Mathlib.Analysis.Complex.Basic

/-! # Specification: density matrices

A density matrix assigns a number to every pair (row, column) of basis indices. -/

namespace Verif.Spec
open scoped ComplexConjugate

/-- `F ρ F†` for an operator `F`: apply `F` to every column, then the conjugate of `F` to every row; cells outside the
`dim × dim` matrix stay as they are -/
noncomputable def onMatrix (dim : Nat) (F : (BitVec 64 → ℂ) → BitVec 64 → ℂ) (ρ : BitVec 64 × BitVec 64 → ℂ) :
    BitVec 64 × BitVec 64 → ℂ := fun p =>
  if p.1.toNat < dim ∧ p.2.toNat < dim then conj (F (fun c => conj (F (fun r => ρ (r, c)) p.1)) p.2) else ρ p

/-- the projector `|ψ⟩⟨ψ|` -/
noncomputable def projector (ψ : BitVec 64 → ℂ) : BitVec 64 × BitVec 64 → ℂ := fun p => ψ p.1 * conj (ψ p.2)

/-- basis vector `r` -/
noncomputable def unitVector (r : BitVec 64) : BitVec 64 → ℂ := fun k => if k = r then 1 else 0

/-- element `p` of the product `F ρ F†`, where `F` is the matrix with elements `F e_r i` -/
noncomputable def conjugatedBy (dim : Nat) (F : (BitVec 64 → ℂ) → BitVec 64 → ℂ) (ρ : BitVec 64 × BitVec 64 → ℂ)
    (p : BitVec 64 × BitVec 64) : ℂ :=
  ∑ r ∈ Finset.range dim, ∑ c ∈ Finset.range dim,
    F (unitVector (BitVec.ofNat 64 r)) p.1 * ρ (BitVec.ofNat 64 r, BitVec.ofNat 64 c) * conj (F (unitVector (BitVec.ofNat 64 c)) p.2)

/-- the matrix equals its conjugate transpose -/
def HermitianOn (dim : Nat) (ρ : BitVec 64 × BitVec 64 → ℂ) : Prop :=
  ∀ i j : BitVec 64, i.toNat < dim → j.toNat < dim → ρ (i, j) = conj (ρ (j, i))

/-- the sum of the diagonal -/
noncomputable def traceOf (dim : Nat) (ρ : BitVec 64 × BitVec 64 → ℂ) : ℂ :=
  ∑ i ∈ Finset.range dim, ρ (BitVec.ofNat 64 i, BitVec.ofNat 64 i)

/-- the qubits of `n` that are not traced out, in ascending order -/
def keptQubits (n : Nat) (qs : List Nat) : List Nat := (List.range n).filter (· ∉ qs)

/-- the index of `n` qubits whose kept qubits spell `i` and whose traced qubits spell `x` -/
def jointIndex (n : Nat) (qs : List Nat) (i x : Nat) : BitVec 64 := putBits (putBits 0 (keptQubits n qs) i) qs x

/-- the partial trace: element `(i, j)` is the sum, over the values `x` of the traced qubits, of the elements whose row and
column agree with `i` and `j` on the kept qubits and both have `x` on the traced ones -/
noncomputable def partialTraceOf (n : Nat) (qs : List Nat) (ρ : BitVec 64 × BitVec 64 → ℂ) (p : BitVec 64 × BitVec 64) : ℂ :=
  ∑ x ∈ Finset.range (2 ^ qs.length), ρ (jointIndex n qs p.1.toNat x, jointIndex n qs p.2.toNat x)

end Verif.Spec
