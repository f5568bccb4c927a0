import Verif.Model.StateVec

/-!
# Adding and setting batches of states

Model of `StateVectorBatched::add_state_vector_with_coef` (/repo/src/state/state_vector_batched.cpp:421-437) and `set_computational_basis` (91-104).  The amplitudes are of any type with an
addition and a multiplication, so that exact and floating-point arithmetic are both covered; `c` is `ComplexType(coef)`.
-/

namespace Verif.Model
open Verif

variable {R : Type} [Add R] [Mul R]

/-- the memory of two batches: `(false, b, i)` is `_raw(b, i)`, `(true, b, i)` is `states._raw(b, i)` -/
def twoBatches (x y : Nat → U64 → R) : Bool × Nat × U64 → R := fun p => if p.1 then y p.2.1 p.2.2 else x p.2.1 p.2.2

/-- the kernel of /repo/src/state/state_vector_batched.cpp:429-436, one work item per state and amplitude -/
def batchAddPool (B dim : Nat) (c : R) : Pool (Fin B × Fin dim) (Bool × Nat × U64) R := fun w => do
  let i : U64 := BitVec.ofNat 64 w.2.val
  let a ← Prog.load (false, w.1.val, i)
  let b ← Prog.load (true, w.1.val, i)
  Prog.store (false, w.1.val, i) (a + c * b)

/-- /repo/src/state/state_vector_batched.cpp:421-437: the states `x` of a batch of `B` states of `n` qubits after adding the `B'` states `y` of `n'` qubits -/
def BatchAddsWithCoef (B n B' n' : Nat) (c : R) (x y : Nat → U64 → R) (out : Res (Nat → U64 → R)) : Prop :=
  if n ≠ n' ∨ B ≠ B' then
    out = .error (.throw "Error: StateVectorBatched::add_state_vector(const StateVectorBatched&): invalid states")
  else ∃ x', Runs (fun p : Bool × Nat × U64 => if p.1 then p.2.1 < B' ∧ p.2.2.toNat < 2 ^ n' else p.2.1 < B ∧ p.2.2.toNat < 2 ^ n)
    (batchAddPool B (2 ^ n) c) (twoBatches x y) (twoBatches x' y) ∧ out = .ok x'

/-- the kernel of /repo/src/state/state_vector_batched.cpp:99-103, `_raw(b, i) = (i == basis)` -/
def batchBasisPool [Zero R] [One R] (B dim basis : Nat) : Pool (Fin B × Fin dim) (Nat × U64) R := fun w =>
  Prog.store (w.1.val, BitVec.ofNat 64 w.2.val) (if w.2.val = basis then 1 else 0)

/-- /repo/src/state/state_vector_batched.cpp:91-104 `set_computational_basis` of a batch; `set_zero_state` is basis 0 -/
def BatchSetsBasis [Zero R] [One R] (B n basis : Nat) (x : Nat → U64 → R) (out : Res (Nat → U64 → R)) : Prop :=
  if basis ≥ 2 ^ n then
    out = .error (.throw "Error: StateVectorBatched::set_computational_basis(std::uint64_t): index of computational basis must be smaller than 2^qubit_count")
  else ∃ x' : Nat × U64 → R, Runs (fun p : Nat × U64 => p.1 < B ∧ p.2.toNat < 2 ^ n) (batchBasisPool B (2 ^ n) basis) (fun p => x p.1 p.2) x' ∧
    out = .ok fun b j => x' (b, j)

end Verif.Model
