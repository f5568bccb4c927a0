import Verif.Spec.Gates
import Verif.Spec.Algebra

/-! # Specification: Pauli strings as products of one-qubit Pauli matrices -/

namespace Verif.Spec

/-- the four one-qubit Paulis -/
inductive Pauli1
  | I | X | Y | Z
  deriving DecidableEq, Repr

/-- their matrices -/
noncomputable def pauli1Mat : Pauli1 → Nat → Nat → ℂ
  | .I => matOne
  | .X => pauliX
  | .Y => pauliY
  | .Z => pauliZ

/-- apply the listed one-qubit Paulis one after another (last first) -/
noncomputable def applyPaulis : List (Nat × Pauli1) → (BitVec 64 → ℂ) → BitVec 64 → ℂ
  | [], ψ => ψ
  | (q, P) :: l, ψ => applyMat [q] (pauli1Mat P) [] (applyPaulis l ψ)

/-- the Pauli numbered `id` as in the documentation: 0 = I, 1 = X, 2 = Y, 3 = Z -/
def pauliOfId : Nat → Pauli1
  | 0 => .I
  | 1 => .X
  | 2 => .Y
  | _ => .Z

/-- the tensor product of one-qubit Paulis, the first acting on the least significant bit -/
noncomputable def pauliStringMat : List Pauli1 → Nat → Nat → ℂ
  | [] => fun _ _ => 1
  | P :: l => fun r s => pauli1Mat P (r % 2) (s % 2) * pauliStringMat l (r / 2) (s / 2)

/-- `coef · P` where the controls hold, identity elsewhere -/
noncomputable def ctrlPauli (l : List (Nat × Pauli1)) (coef : ℂ) (cs : List (Nat × Bool)) (ψ : BitVec 64 → ℂ) :
    BitVec 64 → ℂ := fun j => if CtrlOK cs j then coef * applyPaulis l ψ j else ψ j

/-- `exp(-i θ P / 2) = cos(θ/2) - i sin(θ/2) P` (complex angle `θ`) where the controls hold, identity elsewhere -/
noncomputable def ctrlPauliRot (l : List (Nat × Pauli1)) (θ : ℂ) (cs : List (Nat × Bool)) (ψ : BitVec 64 → ℂ) :
    BitVec 64 → ℂ := fun j =>
  if CtrlOK cs j then Complex.cos (θ / 2) * ψ j - Complex.I * Complex.sin (θ / 2) * applyPaulis l ψ j else ψ j

end Verif.Spec
