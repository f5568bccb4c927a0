import Verif.Model.Circuit
import Verif.Model.Merge

/-! # Circuit optimisation

Model of `Circuit::optimize` (/repo/src/circuit/circuit.cpp:328-486).  `NO_GATES` (2^64 - 1) is `none`; an index into `gate_pool` is a
natural number (a vector cannot hold 2^64 - 1 gates). -/

namespace Verif.Model
open Verif Verif.Spec

/-- /repo/src/circuit/circuit.cpp:341-346 `get_operand_list`; `operand_qubit_list()` is `mask_to_vector` of the operand mask:
/repo/include/scaluq/gate/gate.hpp:300-302, /repo/include/scaluq/gate/param_gate.hpp:107-109,
/repo/include/scaluq/gate/gate_probabilistic.hpp:37-39, /repo/include/scaluq/gate/param_gate_probabilistic.hpp:42-44 -/
def Item.operandList (g : Item) : List Nat := maskToVector (Item.operandMask g)

/-- the local variables of `optimize` (/repo/src/circuit/circuit.cpp:331-340).  `log` is not in the code: it records the pairs handed to
`merge_gate`, in order, and influences nothing. -/
structure OptState where
  gates : List Item
  conds : List (Option Condition)
  phase : ℝ
  pool : List UGate
  waiting : List (Option Nat)
  log : List (UGate × UGate)

/-- /repo/src/circuit/circuit.cpp:350-352, 360-362: the loops assigning `waiting_gate_idx_at_qubit[operand]` -/
def markAll (w : List (Option Nat)) (qs : List Nat) (v : Option Nat) : Res (List (Option Nat)) :=
  qs.foldlM (fun w q => if q < w.length then .ok (w.set q v) else .error (.ub "waiting_gate_idx_at_qubit[] out of range")) w

/-- /repo/src/circuit/circuit.cpp:347-355 `push` -/
def OptState.push (s : OptState) (g : Item) (c : Option Condition) : Res OptState := do
  let w ← markAll s.waiting (Item.operandList g) none
  pure { s with waiting := w, gates := s.gates ++ [g], conds := s.conds ++ [c] }

/-- /repo/src/circuit/circuit.cpp:356-363 `wait` -/
def OptState.wait (s : OptState) (g : UGate) : Res OptState := do
  let w ← markAll s.waiting g.operandQubitList (some s.pool.length)
  pure { s with waiting := w, pool := s.pool ++ [g] }

/-- `std::ranges::unique` and `erase`: drops elements equal to their predecessor -/
def uniqueAdj : List Nat → List Nat
  | a :: b :: l => if a = b then uniqueAdj (b :: l) else a :: uniqueAdj (b :: l)
  | l => l

/-- `std::ranges::sort` followed by `unique` (/repo/src/circuit/circuit.cpp:370-372, 473-475) -/
def sortUnique (l : List Nat) : List Nat := uniqueAdj (l.mergeSort (fun a b => decide (a ≤ b)))

/-- /repo/src/circuit/circuit.cpp:364-374 `get_waiting_gate_indices` -/
def OptState.waitingIndices (s : OptState) (g : Item) : Res (List Nat) := do
  let l ← (Item.operandList g).mapM (elemAt s.waiting)
  pure (sortUnique (l.filterMap id))

/-- /repo/src/circuit/circuit.cpp:375-379 and 462-464: push the gates of the pool with these indices -/
def OptState.pushAll (s : OptState) (is : List Nat) : Res OptState :=
  is.foldlM (fun s i => do
    let g ← elemAt s.pool i
    s.push (.inl (.det g)) none) s

/-- /repo/src/circuit/circuit.cpp:380-387 `get_newly_applied_qubits` -/
def OptState.newlyApplied (s : OptState) (g : Item) : Res (List Nat) :=
  (Item.operandList g).filterMapM fun q => do
    let w ← elemAt s.waiting q
    pure (if w = none then some q else none)

/-- /repo/src/circuit/circuit.cpp:422-425 `is_pauli` -/
def isPauli : UGate → Bool
  | .one .X _ | .one .Y _ | .one .Z _ | .pauli _ => true
  | _ => false

/-- /repo/src/circuit/circuit.cpp:426-428 `is_pure_pauli` -/
def isPurePauli (g : UGate) : Bool := decide (g.operands.c = 0) && isPauli g

/-- /repo/src/circuit/circuit.cpp:413-449: `all_pauli || new_gate_size <= max_block_size` -/
def OptState.shouldMerge (s : OptState) (maxBlock : Nat) (g : UGate) (is : List Nat) : Res Bool := do
  let newly ← s.newlyApplied (.inl (.det g))
  let prev ← is.mapM (elemAt s.pool)
  let size := prev.foldl (fun acc p => acc + p.operandQubitList.length) newly.length
  let allPauli := isPurePauli g && prev.all isPurePauli
  match prev with
  | [p] =>
    let size := sub64 size (popcount (commonControls g.operands p.operands))
    let both := decide (g.operands.c = p.operands.c) && decide (g.operands.v = p.operands.v) && isPauli g && isPauli p
    pure (both || allPauli || decide (size ≤ maxBlock))
  | _ => pure (allPauli || decide (size ≤ maxBlock))

/-- /repo/src/circuit/circuit.cpp:451-457: the loop merging the waiting gates into the gate; returns the state with the accumulated phase
and the merged gate -/
noncomputable def OptState.mergeAll (s : OptState) (g : UGate) (is : List Nat) : Res (OptState × UGate) :=
  is.foldlM (fun (a : OptState × UGate) i => do
    let p ← elemAt a.1.pool i
    let r ← mergeGate p a.2
    pure ({ a.1 with phase := a.1.phase + r.2, log := a.1.log ++ [(p, a.2)] }, r.1)) (s, g)

/-- /repo/src/circuit/circuit.cpp:409-468: a gate that can be merged -/
noncomputable def OptState.mergeable (s : OptState) (maxBlock : Nat) (g : UGate) : Res OptState := do
  let is ← s.waitingIndices (.inl (.det g))
  if is = [] then s.wait g
  else do
    let m ← s.shouldMerge maxBlock g is
    if m then do
      let r ← s.mergeAll g is
      r.1.wait r.2
    else do
      let s ← s.pushAll is
      s.wait g

/-- /repo/src/circuit/circuit.cpp:393-398: push the gates waiting on the qubits of an item, then the item -/
def OptState.pushItem (s : OptState) (g : Item) (c : Option Condition) : Res OptState := do
  let is ← s.waitingIndices g
  let s ← s.pushAll is
  s.push g c

/-- /repo/src/circuit/circuit.cpp:389-469: the body of the main loop -/
noncomputable def OptState.step (maxBlock : Nat) (s : OptState) (c : Option Condition) (g : Item) : Res OptState :=
  match c, g with
  | none, .inl (.det .ident) => .ok s
  | none, .inl (.det (.globalPhase φ o)) =>
    if o.c = 0 then .ok { s with phase := s.phase + φ } else s.mergeable maxBlock (.globalPhase φ o)
  | none, .inl (.det g) => s.mergeable maxBlock g
  | c, g => s.pushItem g c

/-- /repo/src/circuit/circuit.cpp:389-391: the main loop -/
noncomputable def Circuit.optLoop (C : Circuit) (maxBlock : Nat) (s : OptState) : Res OptState :=
  (List.range C.gates.length).foldlM (fun s idx => do
    let g ← elemAt C.gates idx
    let c ← elemAt C.conds idx
    s.step maxBlock c g) s

open Classical in
/-- /repo/src/circuit/circuit.cpp:470-480: append the gates still waiting, then the global phase -/
noncomputable def OptState.finish (s : OptState) : Res OptState := do
  let gs ← (sortUnique (s.waiting.filterMap id)).mapM (elemAt s.pool)
  let s := { s with gates := s.gates ++ gs.map (fun g => .inl (.det g)), conds := s.conds ++ gs.map (fun _ => none) }
  if |s.phase| > 1e-12 then do
    let g ← (GateDesc.globalPhase s.phase [] []).build
    s.push (.inl (.det g)) none
  else pure s

/-- /repo/src/circuit/circuit.cpp:328-486 `optimize`; the circuit is replaced only at the very end, so an exception leaves it as it was.  The
second component is the record of the merges. -/
noncomputable def Circuit.optimize (C : Circuit) (maxBlock : Nat) : Res (Circuit × List (UGate × UGate)) := do
  let s ← C.optLoop maxBlock ⟨[], [], 0, [], List.replicate C.requiredQubits none, []⟩
  let s ← s.finish
  pure (⟨s.gates, s.conds⟩, s.log)

end Verif.Model
