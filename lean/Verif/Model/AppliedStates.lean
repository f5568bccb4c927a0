import Verif.Model.OperatorBatched
import Verif.Model.Density
import Verif.Core.Atomic

/-!
# Applying a batched operator

Model of the CSR version of `apply_pauli` (/repo/include/scaluq/operator/apply_pauli.hpp:107-172) and of
`OperatorBatched::get_applied_states` (/repo/src/operator/operator_batched.cpp:59-68).  The kernel reads `states` and writes
`results`, two different allocations of the same extents.  `states` is never written, so it is a parameter `ψ`; every cell of
`states` that is read is read by a work item that also accesses the same cell of `results`, so it is in range exactly when
the accesses of `results` are.  A cell of `results` is (slot, index).
-/

namespace Verif.Model
open Verif

/-- `results._raw(batch_id, state_idx) += ctr`: a load and a store -/
def plainAdd (a : Nat × U64) (v : ℂ) (k : AProg (Nat × U64) ℂ) : AProg (Nat × U64) ℂ :=
  .read a fun r => .write a (r + v) k

/-- `results._raw(batch_id, state_idx) -= ctr`: a load and a store -/
def plainSub (a : Nat × U64) (v : ℂ) (k : AProg (Nat × U64) ℂ) : AProg (Nat × U64) ℂ :=
  .read a fun r => .write a (r - v) k

/-- apply_pauli.hpp:136-147: one index `ii` of a term without bit flips, followed by `k`. -/
def csrDiag (c v : U64) (ψ : U64 → ℂ) (slot : Nat) (p : PauliOp) (ii : U64) (k : AProg (Nat × U64) ℂ) :
    AProg (Nat × U64) ℂ :=
  let idx := insertZero ii c ||| v
  let ctr := p.coef * ψ idx
  if oddParity (idx &&& p.z) then plainSub (slot, idx) ctr k else plainAdd (slot, idx) ctr k

/-- apply_pauli.hpp:148-165: a term with bit flips, followed by `k`. -/
def csrFlip (c v : U64) (ψ : U64 → ℂ) (slot : Nat) (p : PauliOp) (i : U64) (k : AProg (Nat × U64) ℂ) :
    AProg (Nat × U64) ℂ :=
  let phase := phaseM90 (popcount (p.x &&& p.z))
  let basis0 := insertZero i (c ||| (1#64 <<< pivotOf p.x)) ||| v
  let basis1 := basis0 ^^^ p.x
  let tmp1 := ψ basis0 * phase
  let tmp2 := ψ basis1 * phase
  let tmp2 := if oddParity (basis0 &&& p.z) then -tmp2 else tmp2
  let tmp1 := if oddParity (basis1 &&& p.z) then -tmp1 else tmp1
  .add (slot, basis0) (tmp2 * p.coef) (.add (slot, basis1) (tmp1 * p.coef) k)

/-- apply_pauli.hpp:130-167: the loop over the terms of the slot in work item `i`. -/
def csrItem (c v : U64) (ψ : U64 → ℂ) (slot : Nat) (i : U64) : List PauliOp → AProg (Nat × U64) ℂ
  | [] => .done
  | p :: ts =>
    if p.x = 0 then csrDiag c v ψ slot p (2 * i) (csrDiag c v ψ slot p (2 * i + 1) (csrItem c v ψ slot i ts))
    else csrFlip c v ψ slot p i (csrItem c v ψ slot i ts)

/-- apply_pauli.hpp:122-126: `std::min(batch_size, rsize - b)` as the league size of a team policy -/
def csrLeague (slots : List (List PauliOp)) (bs b : U64) : Res Nat :=
  leagueSize (min bs.toNat (slots.length - b.toNat))

theorem csrLeague_le {slots : List (List PauliOp)} {bs b : U64} {league : Nat} (h : csrLeague slots bs b = .ok league) :
    league ≤ slots.length - b.toNat := by
  unfold csrLeague leagueSize at h
  split at h
  · cases h
    exact le_trans (Nat.mod_le _ _) (min_le_right _ _)
  · cases h

/-- apply_pauli.hpp:122-169, the kernel started for the chunk at `b`. -/
def csrChunk (c v : U64) (ψ : Nat → U64 → ℂ) (dim : Nat) (slots : List (List PauliOp)) (bs b : U64) {league : Nat}
    (hb : b.toNat < slots.length) (h : csrLeague slots bs b = .ok league) :
    APool (Fin league × Fin (dim >>> (popcount c + 1))) (Nat × U64) ℂ := fun w =>
  let slot := w.1.val + b.toNat
  csrItem c v (ψ slot) slot (BitVec.ofNat 64 w.2.val)
    (slots[slot]'(by have := w.1.isLt; have := csrLeague_le h; show w.1.val + b.toNat < _; omega))

/-- the cells of `results` -/
def InBatch (B dim : Nat) (a : Nat × U64) : Prop := a.1 < B ∧ InState dim a.2

/-- apply_pauli.hpp:121-169, `for (b = ..; b < rsize; b += batch_size)` from `b` on: `CsrLoop … b m m'` if the loop ends with
`results = m'` under every schedule.  Nothing is related when a kernel of the loop can go wrong or the loop does not end. -/
inductive CsrLoop (c v : U64) (ψ : Nat → U64 → ℂ) (dim : Nat) (slots : List (List PauliOp)) (bs : U64) :
    U64 → (Nat × U64 → ℂ) → (Nat × U64 → ℂ) → Prop
  | stop (b : U64) (m : Nat × U64 → ℂ) : ¬ b.toNat < slots.length → CsrLoop c v ψ dim slots bs b m m
  | chunk (b : U64) (m m1 m2 : Nat × U64 → ℂ) (league : Nat) (hb : b.toNat < slots.length)
      (h : csrLeague slots bs b = .ok league) :
      ARuns (InBatch slots.length dim) (csrChunk c v ψ dim slots bs b hb h) m m1 →
      CsrLoop c v ψ dim slots bs (b + bs) m1 m2 → CsrLoop c v ψ dim slots bs b m m2

/-- the terms `_ops(_row_ptr(b)) .. _ops(_row_ptr(b + 1) - 1)` of all slots -/
def OpB.slots (o : OpB) : Res (List (List PauliOp)) :=
  (List.finRange o.batchSize).mapM fun b => subview o.ops (o.first b) (o.last b)

/-- /repo/src/operator/operator_batched.cpp:59-68 `get_applied_states` on a state of `n` qubits returns the batch of states
`out`.  `res` is a batch with one copy of the state per slot, so that the check at apply_pauli.hpp:114-118 holds;
`results.set_zero_norm_state()` fills with zeros. -/
def OpB.AppliedStates (o : OpB) (n : Nat) (ψ : U64 → ℂ) (batchSize : U64) (out : Nat × U64 → ℂ) : Prop :=
  n < 64 ∧ ∃ slots, o.slots = .ok slots ∧
    CsrLoop 0 0 (fun _ => ψ) (2 ^ n) slots batchSize 0 (fun _ => 0) out

end Verif.Model
