import Verif.Spec.State
import Mathlib.Analysis.SpecialFunctions.Trigonometric.Basic
import Mathlib.Analysis.SpecialFunctions.Complex.Circle

/-!
# Specification: the textbook matrices of the named gates

Independent of the implementation.  Rows and columns are indexed by the value of the target qubits, first listed
target = least significant bit.
-/

namespace Verif.Spec
open Complex

/-- the one-qubit gates of the public API (gate:: namespace of /repo/include/scaluq/gate/gate_factory.hpp) -/
inductive Gate1 where
  | X | Y | Z | H | S | Sdag | T | Tdag | SqrtX | SqrtXdag | SqrtY | SqrtYdag | P0 | P1
  | RX (θ : ℝ) | RY (θ : ℝ) | RZ (θ : ℝ) | U1 (lam : ℝ) | U2 (phi lam : ℝ) | U3 (θ phi lam : ℝ)

/-- `e^{ix}` -/
noncomputable def cis (x : ℝ) : ℂ := Complex.exp (x * I)

/-- rotation `cos(θ/2) 1 - i sin(θ/2) P` of a matrix `P` -/
noncomputable def rot (P : Nat → Nat → ℂ) (θ : ℝ) : Nat → Nat → ℂ := fun r s =>
  (Real.cos (θ / 2) : ℂ) * (if r = s then 1 else 0) - I * (Real.sin (θ / 2) : ℂ) * P r s

/-- Pauli matrices -/
def pauliX : Nat → Nat → ℂ := mat2 0 1 1 0
noncomputable def pauliY : Nat → Nat → ℂ := mat2 0 (-I) I 0
def pauliZ : Nat → Nat → ℂ := mat2 1 0 0 (-1)

/-- the textbook matrix of a one-qubit gate -/
noncomputable def gate1Mat : Gate1 → Nat → Nat → ℂ
  | .X => pauliX
  | .Y => pauliY
  | .Z => pauliZ
  | .H => fun r s => (1 / (Real.sqrt 2 : ℂ)) * mat2 1 1 1 (-1) r s
  | .S => mat2 1 0 0 I
  | .Sdag => mat2 1 0 0 (-I)
  | .T => mat2 1 0 0 (cis (Real.pi / 4))
  | .Tdag => mat2 1 0 0 (cis (-(Real.pi / 4)))
  | .SqrtX => fun r s => (1 / 2) * mat2 (1 + I) (1 - I) (1 - I) (1 + I) r s
  | .SqrtXdag => fun r s => (1 / 2) * mat2 (1 - I) (1 + I) (1 + I) (1 - I) r s
  | .SqrtY => fun r s => (1 / 2) * mat2 (1 + I) (-1 - I) (1 + I) (1 + I) r s
  | .SqrtYdag => fun r s => (1 / 2) * mat2 (1 - I) (1 - I) (-1 + I) (1 - I) r s
  | .P0 => mat2 1 0 0 0
  | .P1 => mat2 0 0 0 1
  | .RX θ => rot pauliX θ
  | .RY θ => rot pauliY θ
  | .RZ θ => rot pauliZ θ
  | .U1 lam => mat2 1 0 0 (cis lam)
  | .U2 phi lam => fun r s => (1 / (Real.sqrt 2 : ℂ)) * mat2 1 (-cis lam) (cis phi) (cis (phi + lam)) r s
  | .U3 θ phi lam => mat2 (Real.cos (θ / 2)) (-cis lam * Real.sin (θ / 2)) (cis phi * Real.sin (θ / 2))
      (cis (phi + lam) * Real.cos (θ / 2))

/-- swap: basis state `(x0, x1)` goes to `(x1, x0)` -/
def swapMat : Nat → Nat → ℂ := fun r s => if r % 2 = s / 2 ∧ r / 2 = s % 2 then 1 else 0

/-- echoed cross resonance on (control, target) = (bit 0, bit 1): `(1 ⊗ X_c - X_t ⊗ Y_c) / √2` -/
noncomputable def ecrMat : Nat → Nat → ℂ := fun r s => (1 / (Real.sqrt 2 : ℂ)) *
  ((if r / 2 = s / 2 then 1 else 0) * pauliX (r % 2) (s % 2) - pauliX (r / 2) (s / 2) * pauliY (r % 2) (s % 2))

/-- permutation of wires: the value of qubit `q` moves to qubit `dst[q]` -/
def permMat (dst : List Nat) : Nat → Nat → ℂ := fun r s =>
  if ∀ q (h : q < dst.length), r.testBit dst[q] = s.testBit q then 1 else 0

end Verif.Spec
