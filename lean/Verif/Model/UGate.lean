import Verif.Model.Gate2
import Verif.Model.Pauli

/-! # Gate objects without randomness

`UGate` is the model of the shared gate pointer `Gate<Prec>` (/repo/include/scaluq/gate/gate.hpp) restricted to the
classes whose update does not use random numbers; `GateDesc` are the arguments of the factory functions of namespace
`gate` (/repo/include/scaluq/gate/gate_factory.hpp). -/

namespace Verif.Model
open Verif Verif.Spec

/-- A gate object. -/
inductive UGate where
  | ident
  | globalPhase (phase : ℝ) (o : Operands)
  | one (k : Gate1) (o : Operands)
  | swap (o : Operands)
  | ecr (g : EcrGate)
  | perm (g : PermGate)
  | dense (g : DenseGate)
  | sparse (g : SparseGate)
  | pauli (g : PauliGate)
  | pauliRot (g : PauliGate) (angle : ℝ)

/-- `_target_mask`, `_control_mask`, `_control_value_mask` of the object; `IGateImpl()` passes zeros
(/repo/include/scaluq/gate/gate_standard.hpp:12). -/
def UGate.operands : UGate → Operands
  | .ident => ⟨0, 0, 0⟩
  | .globalPhase _ o => o
  | .one _ o => o
  | .swap o => o
  | .ecr g => g.o
  | .perm g => g.o
  | .dense g => g.o
  | .sparse g => g.o
  | .pauli g => g.o
  | .pauliRot g _ => g.o

/-- `target_qubit_list()` (/repo/include/scaluq/gate/gate.hpp:291-293) -/
def UGate.targetQubitList (g : UGate) : List Nat := maskToVector g.operands.t

/-- `control_qubit_list()` (/repo/include/scaluq/gate/gate.hpp:294-296) -/
def UGate.controlQubitList (g : UGate) : List Nat := maskToVector g.operands.c

/-- `control_value_list()` (/repo/include/scaluq/gate/gate.hpp:297-299) -/
def UGate.controlValueList (g : UGate) : List Nat := maskToVector2 g.operands.c g.operands.v

/-- `operand_qubit_list()` (/repo/include/scaluq/gate/gate.hpp:300-302) -/
def UGate.operandQubitList (g : UGate) : List Nat := maskToVector (g.operands.t ||| g.operands.c)

/-- `update_quantum_state` of every class: the launches on `B` states of `n` qubits (`L` = vector length of the SIMD
build, 0 without).  I: /repo/src/gate/gate_standard.cpp:18-26 and /repo/src/gate/update_ops_standard.cpp `i_gate`
(does nothing, checks nothing); the others see the named definitions. -/
noncomputable def UGate.update (L B n : Nat) : UGate → Res (Device ℂ)
  | .ident => .ok .skip
  | .globalPhase phase o => globalPhaseUpdate L B n phase o
  | .one k o => gate1Update L B n k o
  | .swap o => swapUpdate B n o
  | .ecr g => ecrUpdate B n g
  | .perm g => permUpdate B n g
  | .dense g => denseUpdate L B n g.mat g.o
  | .sparse g => sparseUpdate B n g.mat g.o
  | .pauli g => pauliUpdate B n g
  | .pauliRot g angle => pauliRotUpdate B n g angle

/-- /repo/src/util/utility.cpp:69-82 `convert_csr_to_external_matrix`: a zero matrix, then the stored entries are
assigned in order; a column outside the matrix is undefined behaviour. -/
def Csr.toExternal (m : Csr ℂ) : Res (DMat ℂ) := do
  let rows ← (List.range m.rows).mapM m.row
  if rows.all (fun r => r.all (fun p => decide (p.2 < m.cols))) then
    pure ⟨m.rows, m.cols, fun i j => match rows[i]? with
      | none => 0
      | some row => row.foldl (fun acc p => if p.2 = j then p.1 else acc) 0⟩
  else .error (.ub "eigen_matrix(i, col) out of range")

/-- a 2x2 matrix as `ComplexMatrix` -/
def M22.toDMat {R : Type} (m : M22 R) : DMat R := ⟨2, 2, mat2 m.m00 m.m01 m.m10 m.m11⟩

/-- `get_matrix` of every class: I /repo/src/gate/gate_standard.cpp:8-10, GlobalPhase 56-58; DenseMatrix
/repo/src/gate/gate_matrix.cpp:79-99 (the stored matrix in any of its representations), SparseMatrix 184-186; Pauli
/repo/include/scaluq/gate/gate_pauli.hpp:32; the others see the named definitions. -/
noncomputable def UGate.getMatrix : UGate → Res (DMat ℂ)
  | .ident => .ok ⟨1, 1, fun r s => if r = s then 1 else 0⟩
  | .globalPhase phase _ => .ok ⟨1, 1, fun r s => (if r = s then 1 else 0) * expI phase⟩
  | .one k _ => .ok (gate1GetMatrix k).toDMat
  | .swap _ => .ok swapGetMatrix
  | .ecr g => .ok (ecrGetMatrix g)
  | .perm g => .ok (permGetMatrix g.dst)
  | .dense g => .ok g.mat
  | .sparse g => g.mat.toExternal
  | .pauli g => g.p.getMatrix
  | .pauliRot g angle => pauliRotGetMatrix g angle

/-- /repo/src/gate/gate_matrix.cpp:38-50 `DenseMatrixGateImpl::get_inverse`. -/
noncomputable def denseInverse (g : DenseGate) : Res DenseGate :=
  if g.isUnitary then
    .ok ⟨⟨g.mat.cols, g.mat.rows, fun r s => (starRingEnd ℂ) (g.mat.entry s r)⟩, g.isUnitary, g.o⟩
  else .error (.throw "inverse of non-unitary matrix gate is currently not available.")

/-- `get_inverse` of every class: I /repo/include/scaluq/gate/gate_standard.hpp:16-18, GlobalPhase 63-66, Swap
1070-1072, Ecr 1130-1132; SparseMatrix /repo/src/gate/gate_matrix.cpp:160-162; Pauli
/repo/include/scaluq/gate/gate_pauli.hpp:29-31, PauliRotation 79-82; the others see the named definitions. -/
noncomputable def UGate.inverse : UGate → Res UGate
  | .ident => .ok .ident
  | .globalPhase phase o => .ok (.globalPhase (-phase) o)
  | .one k o => do
    let k' ← gate1Inverse k
    pure (.one k' o)
  | .swap o => .ok (.swap o)
  | .ecr g => .ok (.ecr g)
  | .perm g => do
    let g' ← permInverse g
    pure (.perm g')
  | .dense g => do
    let g' ← denseInverse g
    pure (.dense g')
  | .sparse _ => .error (.throw "inverse of sparse matrix gate is currently not available.")
  | .pauli g => .ok (.pauli g)
  | .pauliRot g angle => .ok (.pauliRot g (-angle))

/-- Arguments of the factory functions (`values` is the optional list of control values). -/
inductive GateDesc where
  | ident
  | globalPhase (phase : ℝ) (controls values : List Nat)
  | one (k : Gate1) (target : Nat) (controls values : List Nat)
  | swap (a b : Nat) (controls values : List Nat)
  | ecr (control target : Nat) (controls values : List Nat)
  | perm (dst : List Nat)
  | dense (targets : List Nat) (M : DMat ℂ) (controls values : List Nat) (isUnitary : Bool)
  | sparse (targets : List Nat) (M : SMat ℂ) (controls values : List Nat)
  | pauli (p : PauliOp) (controls values : List Nat)
  | pauliRot (p : PauliOp) (angle : ℝ) (controls values : List Nat)

/-- The factory functions /repo/include/scaluq/gate/gate_factory.hpp:23-410. -/
noncomputable def GateDesc.build : GateDesc → Res UGate
  | .ident => .ok .ident
  | .globalPhase phase cs vs => do
    let o ← mkOperands [] cs vs
    pure (.globalPhase phase o)
  | .one k q cs vs => do
    let o ← mkOperands [q] cs vs
    pure (.one k o)
  | .swap a b cs vs => do
    let o ← mkOperands [a, b] cs vs
    pure (.swap o)
  | .ecr c t cs vs => do
    let g ← mkEcr c t cs vs
    pure (.ecr g)
  | .perm dst => do
    let g ← mkPerm dst
    pure (.perm g)
  | .dense ts M cs vs u => do
    let g ← mkDense ts M cs vs u
    pure (.dense g)
  | .sparse ts M cs vs => do
    let g ← mkSparse ts M cs vs
    pure (.sparse g)
  | .pauli p cs vs => do
    let g ← mkPauli p cs vs
    pure (.pauli g)
  | .pauliRot p angle cs vs => do
    let g ← mkPauli p cs vs
    pure (.pauliRot g angle)

end Verif.Model
