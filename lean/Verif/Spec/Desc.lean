import Verif.Spec.Pauli
import Verif.Model.UGate

/-! # Specification: the operator that the arguments of a factory function describe

Only the types of the arguments are taken from the model. -/

namespace Verif.Spec
open Verif Verif.Model

/-- the letter of a Pauli operator on qubit `q`, from its two bits -/
def letterAt (p : PauliOp) (q : Nat) : Pauli1 :=
  match p.x.getLsbD q, p.z.getLsbD q with
  | false, false => .I
  | true, false => .X
  | true, true => .Y
  | false, true => .Z

/-- the qubits a Pauli operator acts on, in increasing order -/
def pauliQubits (p : PauliOp) : List Nat := (List.range 64).filter (fun q => p.x.getLsbD q || p.z.getLsbD q)

/-- the matrix of a Pauli operator without its coefficient -/
noncomputable def pauliMat (p : PauliOp) : Nat → Nat → ℂ := pauliStringMat ((pauliQubits p).map (letterAt p))

/-- the operator of a Pauli operator with its coefficient: the product of the one-qubit Paulis of all qubits -/
noncomputable def pauliOperator (p : PauliOp) (ψ : BitVec 64 → ℂ) : BitVec 64 → ℂ := fun j =>
  p.coef * applyPaulis ((List.range 64).map fun q => (q, letterAt p q)) ψ j

/-- the operator of a sum of Pauli operators -/
noncomputable def sumOperator (ts : List PauliOp) (ψ : BitVec 64 → ℂ) : BitVec 64 → ℂ := fun j =>
  (ts.map fun p => pauliOperator p ψ j).sum

/-- the target qubits, first = least significant bit of the matrix index -/
def targetsOf : GateDesc → List Nat
  | .ident => []
  | .globalPhase _ _ _ => []
  | .one _ q _ _ => [q]
  | .swap a b _ _ => [a, b]
  | .ecr c t _ _ => [c, t]
  | .perm dst => List.range dst.length
  | .dense ts _ _ _ _ => ts
  | .sparse ts _ _ _ => ts
  | .pauli p _ _ => pauliQubits p
  | .pauliRot p _ _ _ => pauliQubits p

/-- the control qubits with their values -/
def controlsOf : GateDesc → List (Nat × Bool)
  | .ident => []
  | .globalPhase _ cs vs => ctrlList cs vs
  | .one _ _ cs vs => ctrlList cs vs
  | .swap _ _ cs vs => ctrlList cs vs
  | .ecr _ _ cs vs => ctrlList cs vs
  | .perm _ => []
  | .dense _ _ cs vs _ => ctrlList cs vs
  | .sparse _ _ cs vs => ctrlList cs vs
  | .pauli _ cs vs => ctrlList cs vs
  | .pauliRot _ _ cs vs => ctrlList cs vs

/-- the stored value of an entry of a compressed matrix, or zero -/
def storedEntry (m : SMat ℂ) (i j : Nat) : ℂ :=
  match m.stored[i]? with
  | none => 0
  | some row => match row.find? (fun p => decide (p.1 = j)) with
    | none => 0
    | some p => p.2

/-- the matrix on the targets -/
noncomputable def matrixOf : GateDesc → Nat → Nat → ℂ
  | .ident => matOne
  | .globalPhase phase _ _ => fun _ _ => cis phase
  | .one k _ _ _ => gate1Mat k
  | .swap _ _ _ _ => swapMat
  | .ecr _ _ _ _ => ecrMat
  | .perm dst => permMat dst
  | .dense _ M _ _ _ => M.entry
  | .sparse _ M _ _ => storedEntry M
  | .pauli p _ _ => fun r s => p.coef * pauliMat p r s
  | .pauliRot p angle _ _ => fun r s =>
      Complex.cos (angle * p.coef / 2) * matOne r s - Complex.I * Complex.sin (angle * p.coef / 2) * pauliMat p r s

/-- no matrix gate but dense ones on at most two qubits -/
def SmallMatrix : GateDesc → Prop
  | .dense ts _ _ _ _ => ts.length ≤ 2
  | .sparse _ _ _ _ => False
  | _ => True

/-- the operator -/
noncomputable def operatorOf (g : GateDesc) : (BitVec 64 → ℂ) → BitVec 64 → ℂ :=
  applyMat (targetsOf g) (matrixOf g) (controlsOf g)

/-- the qubits -/
def qubitsOf (g : GateDesc) : List Nat := targetsOf g ++ (controlsOf g).map Prod.fst

end Verif.Spec
