import Verif.Model.FloatTransition
import Verif.Model.OperatorBatched

/-!
# Readings of batched operators, and of the single terms of an operator, in floating-point arithmetic

`get_expectation_value` and `get_transition_amplitude` of batched operators (/repo/src/operator/operator_batched.cpp:71-337),
`Operator::get_expectation_values` (/repo/src/operator/operator.cpp:163-238) and `PauliOperator::get_expectation_value` of batches
(/repo/src/operator/pauli_operator.cpp:176-243).  The arithmetic of the type `F` and the order of the additions are left open, as in
`Verif.Model.FloatReduce`.
-/

namespace Verif.Model
open Verif

section
variable {R F : Type} [Zero F] [One F] [Add F] [Sub F] [Mul F] [Neg F] [Zero R] [One R] [Add R] [Sub R] [Mul R] [Neg R] [Cplx R F] (lib : FloatLib F)

/-- the reduction of team `b` (/repo/src/operator/operator_batched.cpp:80-115, also 140-177, 213-249, 287-327): the terms
`_row_ptr[b] .. _row_ptr[b + 1]` and `dim >> 1` work items for each of them.  Expectation values use the same work item with the same state
twice. -/
def OpB.TeamF (o : OpB) (dim : Nat) (bra ket : Nat → U64 → R) (b : Nat) (r : Res R) : Prop :=
  ∃ h : b < o.batchSize, match subview o.ops (o.first ⟨b, h⟩) (o.last ⟨b, h⟩) with
    | .error e => r = .error e
    | .ok ts => Reduction (termRange ts (dim >>> 1)) (fun w => transItemF lib dim (bra b) (ket b) w.1 (BitVec.ofNat 64 w.2)) r

/-- /repo/src/operator/operator_batched.cpp:71-122 `get_expectation_value` (single state of `n` qubits) -/
def OpB.ExpectationF (o : OpB) (n : Nat) (ψ : U64 → R) : Res (List R) → Prop :=
  PerSlotF o.batchSize (o.TeamF lib (2 ^ n) (fun _ => ψ) fun _ => ψ)

/-- /repo/src/operator/operator_batched.cpp:124-192 `get_expectation_value` (batch of `B` states of `n` qubits) -/
def OpB.ExpectationBatchedF (o : OpB) (n B : Nat) (ψ : Nat → U64 → R) (r : Res (List R)) : Prop :=
  if o.batchSize ≠ B then
    r = .error (.throw "Operator::get_expectation_value: batch_size of OperatorBatched and StateVectorBatched must be same")
  else PerSlotF o.batchSize (o.TeamF lib (2 ^ n) ψ ψ) r

/-- /repo/src/operator/operator_batched.cpp:194-259 `get_transition_amplitude` (single states of `n` and `n'` qubits) -/
def OpB.TransitionF (o : OpB) (n n' : Nat) (bra ket : U64 → R) (r : Res (List R)) : Prop :=
  if n ≠ n' then
    r = .error (.throw "Operator::get_transition_amplitude: n_qubits of state_vector_bra and state_vector_ket must be same")
  else PerSlotF o.batchSize (o.TeamF lib (2 ^ n) (fun _ => bra) fun _ => ket) r

/-- /repo/src/operator/operator_batched.cpp:261-337 `get_transition_amplitude` (batches of `B` and `B'` states of `n` and `n'` qubits) -/
def OpB.TransitionBatchedF (o : OpB) (n n' B B' : Nat) (bra ket : Nat → U64 → R) (r : Res (List R)) : Prop :=
  if n ≠ n' then
    r = .error (.throw "Operator::get_transition_amplitude: n_qubits of states_bra and states_ket must be same")
  else if B ≠ B' then
    r = .error (.throw "Operator::get_transition_amplitude: batch_size of states_bra and states_ket must be same")
  else if o.batchSize ≠ B then
    r = .error (.throw "Operator::get_transition_amplitude: batch_size of OperatorBatched and StateVectorBatched must be same")
  else PerSlotF o.batchSize (o.TeamF lib (2 ^ n) bra ket) r

/-- the reduction of team `t` of /repo/src/operator/operator.cpp:181-229; the number of work items is cast to `int`, and a loop to a non-positive
bound does nothing -/
def Op.TermF (o : Op) (dim : Nat) (ψ : U64 → R) (t : Nat) (r : Res R) : Prop :=
  ∃ h : t < o.terms.length, RangeReduction (toInt32 (dim >>> 1)).toNat (expItemF lib dim ψ o.terms[t]) r

/-- /repo/src/operator/operator.cpp:163-238 `get_expectation_values` (state of `n` qubits): the number of teams is cast to `int`; the results of
the other terms stay zero, as the array is zero-initialised -/
def Op.ExpectationValuesF (o : Op) (n : Nat) (ψ : U64 → R) (r : Res (List R)) : Prop :=
  ∃ s : Res (List R), PerSlotF (min o.terms.length (toInt32 o.terms.length).toNat) (o.TermF lib (2 ^ n) ψ) s ∧
    r = s.map fun l => l ++ List.replicate (o.terms.length - l.length) 0

/-- /repo/src/operator/pauli_operator.cpp:176-243 `get_expectation_value` (batch of `B` states): every team computes what
`get_expectation_value` of a single state computes -/
def PauliOp.ExpectationBatchedF (p : PauliOp) (dim B : Nat) (ψ : Nat → U64 → R) : Res (List R) → Prop :=
  PerSlotF B fun b => p.ExpectationF lib dim (ψ b)

end

end Verif.Model
