import Verif.Model.Space
import Verif.Model.Optimize

/-!
# Execution spaces of merged gates and optimised circuits

`merge_gate<Prec, Space>` (/repo/src/gate/merge_gate.cpp:8-343) and `Circuit::optimize<Space>` (/repo/src/circuit/circuit.cpp:328-486) with the
space of every gate object (`Model/Space.lean`).  The template argument is used in one place: the call of `gate::DenseMatrix<Prec, Space>`
(/repo/src/gate/merge_gate.cpp:29-36).  `get_matrix` of the arguments does not depend on spaces (/repo/src/gate/gate_matrix.cpp:79-99, 191-201).
-/

namespace Verif.Model
open Verif Verif.Spec

/-- /repo/src/gate/merge_gate.cpp:8-38 `merge_gate_dense_matrix<Prec, Space>` -/
noncomputable def mergeDenseS (s : Space) (g1 g2 : SUGate) : Res (SUGate × ℝ) := do
  let r ← mergeDense g1.gate g2.gate
  pure (⟨r.1, s⟩, r.2)

/-- the phase of a global phase without controls: the tests of /repo/src/gate/merge_gate.cpp:61-72 and /repo/src/circuit/circuit.cpp:404-408 -/
def SUGate.freePhase (g : SUGate) : Option ℝ :=
  match g.gate with
  | .globalPhase φ o => if o.c = 0 then some φ else none
  | _ => none

/-- /repo/src/gate/merge_gate.cpp:40-343 `merge_gate<Prec, Space>`.  A gate that is returned as it was given keeps its class; the gates made at
lines 80-339 are of classes without space. -/
noncomputable def mergeGateS (s : Space) (g1 g2 : SUGate) : Res (SUGate × ℝ) :=
  match g1.gate, g2.gate with
  | .perm _, _ => .error (.throw "merge_gate: PermutationGate is not supported.")
  | _, .perm _ => .error (.throw "merge_gate: PermutationGate is not supported.")
  | .ident, _ => .ok (g2, 0)
  | _, .ident => .ok (g1, 0)
  | u1, u2 =>
    match g1.freePhase with
    | some φ => .ok (g2, φ)
    | none =>
      match g2.freePhase with
      | some φ => .ok (g1, φ)
      | none =>
        if ¬ (u1.operands.c = u2.operands.c ∧ u1.operands.v = u2.operands.v) then mergeDenseS s g1 g2
        else do
          match ← runStages u1 u2 mergeStages with
          | some r => pure (⟨r.1, s⟩, r.2)
          | none => mergeDenseS s g1 g2

/-- the local variables of `optimize` (`OptState`) -/
structure SOptState where
  gates : List SItem
  conds : List (Option Condition)
  phase : ℝ
  pool : List SUGate
  waiting : List (Option Nat)
  log : List (SUGate × SUGate)

/-- /repo/src/circuit/circuit.cpp:347-355 `push` -/
def SOptState.push (s : SOptState) (g : SItem) (c : Option Condition) : Res SOptState := do
  let w ← markAll s.waiting (Item.operandList g.plain) none
  pure { s with waiting := w, gates := s.gates ++ [g], conds := s.conds ++ [c] }

/-- /repo/src/circuit/circuit.cpp:356-363 `wait` -/
def SOptState.wait (s : SOptState) (g : SUGate) : Res SOptState := do
  let w ← markAll s.waiting g.gate.operandQubitList (some s.pool.length)
  pure { s with waiting := w, pool := s.pool ++ [g] }

/-- /repo/src/circuit/circuit.cpp:364-374 `get_waiting_gate_indices` -/
def SOptState.waitingIndices (s : SOptState) (g : SItem) : Res (List Nat) := do
  let l ← (Item.operandList g.plain).mapM (elemAt s.waiting)
  pure (sortUnique (l.filterMap id))

/-- /repo/src/circuit/circuit.cpp:375-379 and 462-464: push the gates of the pool with these indices -/
def SOptState.pushAll (s : SOptState) (is : List Nat) : Res SOptState :=
  is.foldlM (fun s i => do
    let g ← elemAt s.pool i
    s.push (.inl (.det g)) none) s

/-- /repo/src/circuit/circuit.cpp:380-387 `get_newly_applied_qubits` -/
def SOptState.newlyApplied (s : SOptState) (g : SItem) : Res (List Nat) :=
  (Item.operandList g.plain).filterMapM fun q => do
    let w ← elemAt s.waiting q
    pure (if w = none then some q else none)

/-- /repo/src/circuit/circuit.cpp:413-449: `all_pauli || new_gate_size <= max_block_size` -/
def SOptState.shouldMerge (s : SOptState) (maxBlock : Nat) (g : SUGate) (is : List Nat) : Res Bool := do
  let newly ← s.newlyApplied (.inl (.det g))
  let prev ← is.mapM (elemAt s.pool)
  let size := prev.foldl (fun acc p => acc + p.gate.operandQubitList.length) newly.length
  let allPauli := isPurePauli g.gate && prev.all fun p => isPurePauli p.gate
  match prev with
  | [p] =>
    let size := sub64 size (popcount (commonControls g.gate.operands p.gate.operands))
    let both := decide (g.gate.operands.c = p.gate.operands.c) && decide (g.gate.operands.v = p.gate.operands.v) && isPauli g.gate && isPauli p.gate
    pure (both || allPauli || decide (size ≤ maxBlock))
  | _ => pure (allPauli || decide (size ≤ maxBlock))

/-- /repo/src/circuit/circuit.cpp:451-457: the loop calling `merge_gate<Prec, Space>` -/
noncomputable def SOptState.mergeAll (sp : Space) (s : SOptState) (g : SUGate) (is : List Nat) : Res (SOptState × SUGate) :=
  is.foldlM (fun (a : SOptState × SUGate) i => do
    let p ← elemAt a.1.pool i
    let r ← mergeGateS sp p a.2
    pure ({ a.1 with phase := a.1.phase + r.2, log := a.1.log ++ [(p, a.2)] }, r.1)) (s, g)

/-- /repo/src/circuit/circuit.cpp:409-468: a gate that can be merged -/
noncomputable def SOptState.mergeable (sp : Space) (s : SOptState) (maxBlock : Nat) (g : SUGate) : Res SOptState := do
  let is ← s.waitingIndices (.inl (.det g))
  if is = [] then s.wait g
  else do
    let m ← s.shouldMerge maxBlock g is
    if m then do
      let r ← s.mergeAll sp g is
      r.1.wait r.2
    else do
      let s ← s.pushAll is
      s.wait g

/-- /repo/src/circuit/circuit.cpp:393-398: push the gates waiting on the qubits of an item, then the item -/
def SOptState.pushItem (s : SOptState) (g : SItem) (c : Option Condition) : Res SOptState := do
  let is ← s.waitingIndices g
  let s ← s.pushAll is
  s.push g c

/-- /repo/src/circuit/circuit.cpp:389-469: the body of the main loop -/
noncomputable def SOptState.step (sp : Space) (maxBlock : Nat) (s : SOptState) (c : Option Condition) (g : SItem) : Res SOptState :=
  match c, g with
  | none, .inl (.det g) =>
    match g.gate with
    | .ident => .ok s
    | _ =>
      match g.freePhase with
      | some φ => .ok { s with phase := s.phase + φ }
      | none => s.mergeable sp maxBlock g
  | c, g => s.pushItem g c

/-- /repo/src/circuit/circuit.cpp:389-391: the main loop -/
noncomputable def SCircuit.optLoop (sp : Space) (C : SCircuit) (maxBlock : Nat) (s : SOptState) : Res SOptState :=
  (List.range C.gates.length).foldlM (fun s idx => do
    let g ← elemAt C.gates idx
    let c ← elemAt C.conds idx
    s.step sp maxBlock c g) s

open Classical in
/-- /repo/src/circuit/circuit.cpp:470-480: append the gates still waiting, then the global phase (a class without space) -/
noncomputable def SOptState.finish (sp : Space) (s : SOptState) : Res SOptState := do
  let gs ← (sortUnique (s.waiting.filterMap id)).mapM (elemAt s.pool)
  let s := { s with gates := s.gates ++ gs.map (fun g => .inl (.det g)), conds := s.conds ++ gs.map (fun _ => none) }
  if |s.phase| > 1e-12 then do
    let g ← (GateDesc.globalPhase s.phase [] []).build
    s.push (.inl (.det ⟨g, sp⟩)) none
  else pure s

/-- /repo/src/circuit/circuit.cpp:328-486 `optimize<Space>` -/
noncomputable def SCircuit.optimize (sp : Space) (C : SCircuit) (maxBlock : Nat) : Res (SCircuit × List (SUGate × SUGate)) := do
  let s ← C.optLoop sp maxBlock ⟨[], [], 0, [], List.replicate C.plain.requiredQubits none, []⟩
  let s ← s.finish sp
  pure (⟨s.gates, s.conds⟩, s.log)

/-- the definitions of `optimize` on the Python class `Circuit`, in the order of their registration
(/repo/include/scaluq/circuit/circuit.hpp:482-486, 724-729); all take one integer -/
def pythonOptimizers (cuda : Bool) : List Space := [.Host, .HostSerial] ++ if cuda then [.Default] else []

/-- `circuit.optimize(max_block_size)` from Python: nanobind calls the first definition that takes the arguments -/
noncomputable def pythonOptimize (cuda : Bool) (C : SCircuit) (maxBlock : Nat) : Res (SCircuit × List (SUGate × SUGate)) :=
  match pythonOptimizers cuda with
  | s :: _ => C.optimize s maxBlock
  | [] => .error (.throw "no such method")

/-- `merge_gate(gate1, gate2)` for `Gate` objects from Python (/repo/python/scaluq/__init__.py:134-147): the module is that of the class `Gate`, which is defined in
the module of the default space (/repo/python/binding.cpp:93-97, 111-115, 129-133, 147-151), so `merge_gate<Prec, Default>`
(/repo/include/scaluq/gate/merge_gate.hpp:12-19) -/
noncomputable def pythonMerge (cuda : Bool) (g1 g2 : SUGate) : Res (SUGate × ℝ) :=
  mergeGateS (if cuda then .Default else .Host) g1 g2

end Verif.Model
