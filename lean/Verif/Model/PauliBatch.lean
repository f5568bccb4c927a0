import Verif.Model.Pauli

/-! # Pauli expectation values and transition amplitudes of batches

A batch is a function from the batch index to a state; `_raw(batch_id, i)` reads amplitude `i` of slot `batch_id`.
Each team writes only the result of its own slot, so the parallel loop over the batch is a map. -/

namespace Verif.Model

/-- the parallel loop over the batch: one result per slot -/
def perSlot {α : Type} (batch : Nat) (f : Nat → Res α) : Res (List α) := (List.range batch).mapM f

/-- /repo/src/operator/pauli_operator.cpp:176-243 `get_expectation_value` (batched). -/
noncomputable def PauliOp.expectationBatched (p : PauliOp) (batch dim : Nat) (ψ : Nat → U64 → ℂ) : Res (List ℂ) := do
  if p.x = 0 then
    perSlot batch fun b => do
      let res ← reduceSum (R := ℝ) dim fun i => do
        let a ← readAt dim (ψ b) i
        let tmp := ((starRingEnd ℂ) a * a).re
        pure (if oddParity (i &&& p.z) then -tmp else tmp)
      pure (p.coef * (res : ℂ))
  else
    let pivot := pivotOf p.x
    let globalPhase := phase90 (popcount (p.x &&& p.z))
    perSlot batch fun b => do
      let res ← reduceSum (R := ℝ) (dim >>> 1) fun i => do
        let basis0 := insertZeroAt i pivot
        let basis1 := basis0 ^^^ p.x
        let x ← readAt dim (ψ b) basis0
        let y ← readAt dim (ψ b) basis1
        let tmp := (x * (starRingEnd ℂ) y * globalPhase * 2).re
        pure (if oddParity (basis0 &&& p.z) then -tmp else tmp)
      pure (p.coef * (res : ℂ))

/-- a batch: number of qubits, number of states and the amplitudes -/
structure Batch where
  n : Nat
  size : Nat
  raw : Nat → U64 → ℂ

/-- /repo/src/operator/pauli_operator.cpp:289-366 `get_transition_amplitude` (batched), as written: real parts of the
contributions, with a factor 2 and the conjugate on the ket when the string flips qubits. -/
noncomputable def PauliOp.transitionBatched (p : PauliOp) (bra ket : Batch) : Res (List ℂ) := do
  if bra.n ≠ ket.n then .error (.throw "state_vector_bra must have same n_qubits to state_vector_ket.")
  else if bra.size ≠ ket.size then
    .error (.throw "state_vector_bra must have same batch_size to state_vector_ket.")
  else if p.x = 0 then
    perSlot bra.size fun b => do
      let res ← reduceSum (R := ℝ) (2 ^ bra.n) fun i => do
        let x ← readAt (2 ^ bra.n) (bra.raw b) i
        let y ← readAt (2 ^ ket.n) (ket.raw b) i
        let tmp := ((starRingEnd ℂ) x * y).re
        pure (if oddParity (i &&& p.z) then -tmp else tmp)
      pure (p.coef * (res : ℂ))
  else
    let pivot := pivotOf p.x
    let globalPhase := phase90 (popcount (p.x &&& p.z))
    perSlot bra.size fun b => do
      let res ← reduceSum (R := ℝ) ((2 ^ bra.n) >>> 1) fun i => do
        let basis0 := insertZeroAt i pivot
        let basis1 := basis0 ^^^ p.x
        let x0 ← readAt (2 ^ bra.n) (bra.raw b) basis0
        let y1 ← readAt (2 ^ ket.n) (ket.raw b) basis1
        let tmp1 := (x0 * (starRingEnd ℂ) y1 * globalPhase * 2).re
        let tmp1 := if oddParity (basis0 &&& p.z) then -tmp1 else tmp1
        let x1 ← readAt (2 ^ bra.n) (bra.raw b) basis1
        let y0 ← readAt (2 ^ ket.n) (ket.raw b) basis0
        let tmp2 := (x1 * (starRingEnd ℂ) y0 * globalPhase * 2).re
        let tmp2 := if oddParity (basis1 &&& p.z) then -tmp2 else tmp2
        pure (tmp1 + tmp2)
      pure (p.coef * (res : ℂ))

end Verif.Model
