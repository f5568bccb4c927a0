import Verif.Model.GatePtr
import Verif.Model.MergeAny
import Verif.Model.Optimize
import Verif.Model.Noise
import Verif.Model.Gradient
import Verif.Model.Qasm

/-!
# Gates with their type tags

The parts of the library that ask `gate_type()` or `param_gate_type()`: a `Gate<Prec>` is an object together with the field `_gate_type`
(`Model/GatePtr.lean`), which need not be the class of the object.  The other models (`Model/Circuit.lean`, `Model/MergeAny.lean`,
`Model/Optimize.lean`, `Model/Noise.lean`, `Model/Gradient.lean`, `Model/Qasm.lean`) read the class of the object where the code reads the field;
here the field is read.  Null pointers are not modelled here.  A field that names a class is the class of the object (`C81_types`), so a downcast
after such a test is written as a match on the object, with undefined behaviour if it is of another class.
-/

namespace Verif.Model
open Verif Verif.Spec

/-- the class of an object; the execution space of the matrix gates is not part of the object here and taken to be `Host` -/
def Gate.cls : Gate → GateClass
  | .prob _ => .Probabilistic
  | .meas _ => .Measurement
  | .det .ident => .I
  | .det (.globalPhase _ _) => .GlobalPhase
  | .det (.swap _) => .Swap
  | .det (.ecr _) => .Ecr
  | .det (.perm _) => .Permutation
  | .det (.dense _) => .DenseMatrix .Host
  | .det (.sparse _) => .SparseMatrix .Host
  | .det (.pauli _) => .Pauli
  | .det (.pauliRot _ _) => .PauliRotation
  | .det (.one k _) => match k with
    | .X => .X | .Y => .Y | .Z => .Z | .H => .H | .S => .S | .Sdag => .Sdag | .T => .T | .Tdag => .Tdag
    | .SqrtX => .SqrtX | .SqrtXdag => .SqrtXdag | .SqrtY => .SqrtY | .SqrtYdag => .SqrtYdag | .P0 => .P0 | .P1 => .P1
    | .RX _ => .RX | .RY _ => .RY | .RZ _ => .RZ | .U1 _ => .U1 | .U2 _ _ => .U2 | .U3 _ _ _ => .U3

/-- the class of a parametric gate object -/
def PGate.cls : PGate → ParamGateClass
  | .rot (.axis .X _ _) => .ParamRX
  | .rot (.axis .Y _ _) => .ParamRY
  | .rot (.axis .Z _ _) => .ParamRZ
  | .rot (.pauli _ _) => .ParamPauliRotation
  | .prob _ => .ParamProbabilistic

/-- `Gate<Prec>`, not null: the object and `_gate_type` -/
structure TGate where
  obj : Gate
  tag : GateType

/-- `ParamGate<Prec>`, not null -/
structure TPGate where
  obj : PGate
  tag : ParamGateType

/-- a gate made by a factory or read from JSON (`GatePtr.create`) -/
def TGate.make (g : Gate) : TGate := ⟨g, gateFamily.staticType (some g.cls)⟩

/-- a parametric gate made by a factory or read from JSON -/
def TPGate.make (g : PGate) : TPGate := ⟨g, paramGateFamily.staticType (some g.cls)⟩

/-- `Gate<Prec>(gate->get_inverse())` (`GatePtr.ofInverse`) -/
noncomputable def TGate.inverse (g : TGate) : Res TGate := do
  let o ← g.obj.inverse
  pure ⟨o, gateFamily.staticType none⟩

/-- `ParamGate<Prec>(gate->get_inverse())` -/
noncomputable def TPGate.inverse (g : TPGate) : Res TPGate := do
  let o ← g.obj.inverse
  pure ⟨o, paramGateFamily.staticType none⟩

/-- `Circuit::GateWithKey` (/repo/include/scaluq/circuit/circuit.hpp:32) -/
abbrev TItem := TGate ⊕ (TPGate × String)

/-- the object behind an entry -/
def TItem.plain : TItem → Item
  | .inl g => .inl g.obj
  | .inr (p, key) => .inr (p.obj, key)

/-- an entry made by factories -/
def TItem.make : Item → TItem
  | .inl g => .inl (.make g)
  | .inr (p, key) => .inr (.make p, key)

/-- `Circuit` (/repo/include/scaluq/circuit/circuit.hpp:204-205) -/
structure TCircuit where
  gates : List TItem
  conds : List (Option Condition)

/-- the objects of a circuit -/
def TCircuit.plain (C : TCircuit) : Circuit := ⟨C.gates.map TItem.plain, C.conds⟩

/-- a circuit whose gates were made by factories -/
def TCircuit.make (C : Circuit) : TCircuit := ⟨C.gates.map TItem.make, C.conds⟩

/-- /repo/src/circuit/circuit.cpp:51-62 `add_circuit` -/
def TCircuit.addCircuit (C D : TCircuit) : TCircuit := ⟨C.gates ++ D.gates, C.conds ++ D.conds⟩

/-! ## inverse -/

/-- `get_inverse()` of an entry (/repo/src/circuit/circuit.cpp:315-321) -/
noncomputable def TItem.inverse : TItem → Res TItem
  | .inl g => do
    let g' ← g.inverse
    pure (.inl g')
  | .inr (p, key) => do
    let p' ← p.inverse
    pure (.inr (p', key))

/-- one iteration of /repo/src/circuit/circuit.cpp:313-324 -/
noncomputable def TCircuit.inverseStep (C : TCircuit) (D : TCircuit) (idx : Nat) : Res TCircuit :=
  match C.gates[C.gates.length - 1 - idx]? with
  | none => .error (.ub "_gate_list[] out of range")
  | some g => do
    let g' ← TItem.inverse g
    match C.conds[sub64 (sub64 C.conds.length 1) idx]? with
    | none => .error (.ub "_classical_conditions[] out of range")
    | some c => pure ⟨D.gates ++ [g'], D.conds ++ [c]⟩

/-- /repo/src/circuit/circuit.cpp:309-326 `get_inverse` -/
noncomputable def TCircuit.inverse (C : TCircuit) : Res TCircuit :=
  (List.range C.gates.length).foldlM C.inverseStep ⟨[], []⟩

/-! ## running -/

/-- what a gate adds to `unreset_measured_qubit_mask` (/repo/src/circuit/circuit.cpp:124-129) -/
def TGate.unresetMask (g : TGate) : Res U64 :=
  if g.tag = .Measurement then
    match g.obj with
    | .meas m => .ok (if m.reset then 0 else m.o.t)
    | _ => .error (.ub "static_pointer_cast to another class")
  else .ok 0

/-- one entry whose condition holds (/repo/src/circuit/circuit.cpp:115-138) -/
def TItem.RunsOn (L n : Nat) (rnd : Nat → ℝ) (params : String → Option ℝ) (g : TItem) (s s' : Context × U64) (f : Option Fault) : Prop :=
  if s.2 &&& Item.operandMask g.plain ≠ 0 then
    s' = s ∧ f = some (.throw "gate touches a qubit that was measured and has not been reset.")
  else match g with
    | .inl g => ∃ f1, g.obj.RunsOn L n rnd s.1 s'.1 f1 ∧
      match f1 with
      | some e => s'.2 = s.2 ∧ f = some e
      | none =>
        match g.unresetMask with
        | .error e => s'.2 = s.2 ∧ f = some e
        | .ok m => s'.2 = s.2 ||| m ∧ f = none
    | .inr (p, key) =>
      match params key with
      | none => s' = s ∧ f = some (.throw "map::at")
      | some θ => p.obj.RunsOn L n rnd θ s.1 s'.1 f ∧ s'.2 = s.2

/-- one iteration of /repo/src/circuit/circuit.cpp:110-139 -/
def TCircuit.StepOn (L n : Nat) (rnd : Nat → ℝ) (params : String → Option ℝ) (C : TCircuit) (idx : Nat) (s s' : Context × U64)
    (f : Option Fault) : Prop :=
  match C.conds[idx]?, C.gates[idx]? with
  | some cond, some g =>
    match evalCond cond s.1.reg with
    | .error e => s' = s ∧ f = some e
    | .ok false => s' = s ∧ f = none
    | .ok true => TItem.RunsOn L n rnd params g s s' f
  | _, _ => s' = s ∧ f = some (.ub "_classical_conditions[idx] out of range")

/-- /repo/src/circuit/circuit.cpp:90-140; the checks before the loop (96-106) do not ask for types -/
def TCircuit.RunsOn (L n : Nat) (rnd : Nat → ℝ) (params : String → Option ℝ) (C : TCircuit) (ψ : U64 → ℂ) (reg : List Bool)
    (c' : Context) (f : Option Fault) : Prop :=
  match C.plain.check n params with
  | .error e => c' = ⟨ψ, reg, 0⟩ ∧ f = some e
  | .ok _ => ∃ mask, SeqRun (C.StepOn L n rnd params) (List.range C.gates.length) (⟨ψ, reg, 0⟩, 0) (c', mask) f

/-- /repo/src/circuit/circuit.cpp:643-652 `has_classical_instructions` -/
def TCircuit.hasClassical (C : TCircuit) : Bool :=
  C.conds.any Option.isSome || C.gates.any fun | .inl g => decide (g.tag = .Measurement) | .inr _ => false

/-- /repo/src/circuit/circuit.cpp:76-88: the overload without register -/
def TCircuit.RunsPlain (L n : Nat) (rnd : Nat → ℝ) (params : String → Option ℝ) (C : TCircuit) (ψ ψ' : U64 → ℂ)
    (f : Option Fault) : Prop :=
  if C.hasClassical then
    ψ' = ψ ∧ f = some (.throw "a classical register is required when the circuit contains measurement or classically controlled instructions.")
  else ∃ c', C.RunsOn L n rnd params ψ [] c' f ∧ ψ' = c'.psi

/-- an unconditional entry on a batch (/repo/src/circuit/circuit.cpp:209-230) -/
def TItem.RunsBatched (L B n : Nat) (rnd : Nat → ℝ) (params : String → Option (List ℝ)) (g : TItem) (s s' : BContext × U64)
    (f : Option Fault) : Prop :=
  if s.2 &&& Item.operandMask g.plain ≠ 0 then
    s' = s ∧ f = some (.throw "gate touches a qubit that was measured and has not been reset.")
  else match g with
    | .inl g => ∃ f1, g.obj.RunsBatched L B n rnd s.1 s'.1 f1 ∧
      match f1 with
      | some e => s'.2 = s.2 ∧ f = some e
      | none =>
        match g.unresetMask with
        | .error e => s'.2 = s.2 ∧ f = some e
        | .ok m => s'.2 = s.2 ||| m ∧ f = none
    | .inr (p, key) =>
      match params key with
      | none => s' = s ∧ f = some (.throw "map::at")
      | some v => p.obj.RunsBatched L B n rnd v s.1 s'.1 f ∧ s'.2 = s.2

/-- one iteration of /repo/src/circuit/circuit.cpp:190-231; conditional entries do not ask for types -/
def TCircuit.StepBatched (L B n : Nat) (rnd : Nat → ℝ) (params : String → Option (List ℝ)) (C : TCircuit) (idx : Nat)
    (s s' : BContext × U64) (f : Option Fault) : Prop :=
  match C.conds[idx]?, C.gates[idx]? with
  | some (some cond), some g => SeqRun (Item.CondSlot L n rnd params cond g.plain) (List.range B) s.1 s'.1 f ∧ s'.2 = s.2
  | some none, some g => TItem.RunsBatched L B n rnd params g s s' f
  | _, _ => s' = s ∧ f = some (.ub "_classical_conditions[idx] out of range")

/-- /repo/src/circuit/circuit.cpp:158-232 -/
def TCircuit.RunsBatched (L B n : Nat) (rnd : Nat → ℝ) (params : String → Option (List ℝ)) (C : TCircuit) (Ψ : U64 → ℂ) (reg : BReg)
    (c' : BContext) (f : Option Fault) : Prop :=
  match C.plain.checkBatched B n reg params with
  | .error e => c' = ⟨Ψ, reg, 0⟩ ∧ f = some e
  | .ok _ => ∃ mask, SeqRun (C.StepBatched L B n rnd params) (List.range C.gates.length) (⟨Ψ, reg, 0⟩, 0) (c', mask) f

/-! ## probabilistic gates -/

/-- an entry of the constructor's list as `flatten_probabilistic_gate` sees it (/repo/src/gate/gate_probabilistic.cpp:18-42) -/
def TGate.component (g : TGate) : Res (Component Gate) :=
  match g.tag with
  | .Measurement => .ok .measurement
  | .Probabilistic =>
    match g.obj with
    | .prob t => .ok (.nested ⟨t.dist, t.cum, t.gates.map .det⟩)
    | _ => .error (.ub "static_pointer_cast to another class")
  | _ => .ok (.leaf g.obj)

/-- the object made by `gate::Probabilistic` (/repo/src/gate/gate_probabilistic.cpp:45-77) -/
noncomputable def mkTaggedProbTable (dist : List (Option ℝ)) (gates : List TGate) : Res (ProbTable Gate) := do
  let cs ← gates.mapM TGate.component
  mkProbTable dist cs

/-! ## merging -/

/-- `control_qubit_mask()`; probabilistic: /repo/include/scaluq/gate/gate_probabilistic.hpp:45-49 -/
def Gate.controlMask : Gate → Res U64
  | .det g => .ok g.operands.c
  | .meas g => .ok g.o.c
  | .prob _ => .error (.throw "ProbabilisticGateImpl::control_qubit_mask(): This function must not be used in ProbabilisticGateImpl.")

/-- `control_value_mask()`; probabilistic: /repo/include/scaluq/gate/gate_probabilistic.hpp:50-54 -/
def Gate.controlValueMask : Gate → Res U64
  | .det g => .ok g.operands.v
  | .meas g => .ok g.o.v
  | .prob _ => .error (.throw "ProbabilisticGateImpl::control_value_mask(): This function must not be used in ProbabilisticGateImpl.")

/-- `merge_gate_dense_matrix` (/repo/src/gate/merge_gate.cpp:8-38) on gates of every class -/
noncomputable def mergeDenseAny (g1 g2 : Gate) : Res (TGate × ℝ) := do
  let _ ← g1.controlMask
  let _ ← g2.controlMask
  match g1, g2 with
  | .det a, .det b => do
    let (g, φ) ← mergeDense a b
    pure (.make (.det g), φ)
  | .det a, .meas m => do
    let (g, φ) ← mergeDenseMeasSecond a m
    pure (.make g, φ)
  | .meas m, _ => do
    let (g, φ) ← mergeDenseMeasFirst m
    pure (.make g, φ)
  | _, _ => .error (.ub "not reached")

/-- the phase if the field says `GlobalPhase` and there are no controls (/repo/src/gate/merge_gate.cpp:68-71) -/
def TGate.freePhase (g : TGate) : Res (Option ℝ) :=
  if g.tag = .GlobalPhase then
    match g.obj with
    | .det (.globalPhase φ o) => .ok (if o.c = 0 then some φ else none)
    | _ => .error (.ub "static_pointer_cast to another class")
  else .ok none

/-- /repo/src/gate/merge_gate.cpp:40-343 `merge_gate`.  The special cases of lines 80-339 all ask for the types of both gates; if one is
`Unknown`, no case applies and the matrices are multiplied.  If both are known, the last two lines are those of `mergeAny`. -/
noncomputable def mergeTagged (a b : TGate) : Res (TGate × ℝ) := do
  if a.tag = .Probabilistic ∨ b.tag = .Probabilistic then .error (.throw "merge_gate: ProbabilisticGate is not supported.") else pure ()
  if a.tag = .Permutation ∨ b.tag = .Permutation then .error (.throw "merge_gate: PermutationGate is not supported.") else pure ()
  if a.tag = .I then pure (b, 0)
  else if b.tag = .I then pure (a, 0)
  else do
    let _ ← a.obj.controlMask
    let _ ← b.obj.controlMask
    match ← a.freePhase with
    | some φ => pure (b, φ)
    | none =>
      match ← b.freePhase with
      | some φ => pure (a, φ)
      | none =>
        if a.tag = .Unknown ∨ b.tag = .Unknown then mergeDenseAny a.obj b.obj
        else do
          let (g, φ) ← mergeAny a.obj b.obj
          pure (.make g, φ)

/-! ## optimisation -/

/-- `OptState` with fields of tagged gates; `log` records the pairs handed to `merge_gate` -/
structure TOptState where
  gates : List TItem
  conds : List (Option Condition)
  phase : ℝ
  pool : List TGate
  waiting : List (Option Nat)
  log : List (TGate × TGate)

/-- /repo/src/circuit/circuit.cpp:347-355 `push` -/
def TOptState.push (s : TOptState) (g : TItem) (c : Option Condition) : Res TOptState := do
  let w ← markAll s.waiting (Item.operandList g.plain) none
  pure { s with waiting := w, gates := s.gates ++ [g], conds := s.conds ++ [c] }

/-- /repo/src/circuit/circuit.cpp:356-363 `wait` -/
def TOptState.wait (s : TOptState) (g : TGate) : Res TOptState := do
  let w ← markAll s.waiting (Item.operandList (.inl g.obj)) (some s.pool.length)
  pure { s with waiting := w, pool := s.pool ++ [g] }

/-- /repo/src/circuit/circuit.cpp:364-374 `get_waiting_gate_indices` -/
def TOptState.waitingIndices (s : TOptState) (g : TItem) : Res (List Nat) := do
  let l ← (Item.operandList g.plain).mapM (elemAt s.waiting)
  pure (sortUnique (l.filterMap id))

/-- /repo/src/circuit/circuit.cpp:375-379 and 462-464 -/
def TOptState.pushAll (s : TOptState) (is : List Nat) : Res TOptState :=
  is.foldlM (fun s i => do
    let g ← elemAt s.pool i
    s.push (.inl g) none) s

/-- /repo/src/circuit/circuit.cpp:380-387 `get_newly_applied_qubits` -/
def TOptState.newlyApplied (s : TOptState) (g : TItem) : Res (List Nat) :=
  (Item.operandList g.plain).filterMapM fun q => do
    let w ← elemAt s.waiting q
    pure (if w = none then some q else none)

/-- /repo/src/circuit/circuit.cpp:422-425 `is_pauli` -/
def TGate.isPauli (g : TGate) : Bool := decide (g.tag = .X ∨ g.tag = .Y ∨ g.tag = .Z ∨ g.tag = .Pauli)

/-- /repo/src/circuit/circuit.cpp:426-428 `is_pure_pauli` -/
def TGate.isPurePauli (g : TGate) : Res Bool := do
  let c ← g.obj.controlMask
  pure (decide (c = 0) && g.isPauli)

/-- `std::ranges::all_of(…, is_pure_pauli)`: stops at the first gate that is not -/
def allPurePauli : List TGate → Res Bool
  | [] => .ok true
  | g :: gs => do
    if ← g.isPurePauli then allPurePauli gs else pure false

/-- /repo/src/circuit/circuit.cpp:413-449: `all_pauli || new_gate_size <= max_block_size` -/
def TOptState.shouldMerge (s : TOptState) (maxBlock : Nat) (g : TGate) (is : List Nat) : Res Bool := do
  let newly ← s.newlyApplied (.inl g)
  let prev ← is.mapM (elemAt s.pool)
  let size := prev.foldl (fun acc p => acc + (Item.operandList (.inl p.obj)).length) newly.length
  let allPauli ← (do if ← g.isPurePauli then allPurePauli prev else pure false)
  match prev with
  | [p] =>
    let c1 ← g.obj.controlMask
    let v1 ← g.obj.controlValueMask
    let c2 ← p.obj.controlMask
    let v2 ← p.obj.controlValueMask
    let size := sub64 size (popcount (c1 &&& c2 &&& ~~~(v1 ^^^ v2)))
    let both := decide (c1 = c2) && decide (v1 = v2) && g.isPauli && p.isPauli
    pure (both || allPauli || decide (size ≤ maxBlock))
  | _ => pure (allPauli || decide (size ≤ maxBlock))

/-- /repo/src/circuit/circuit.cpp:451-457 -/
noncomputable def TOptState.mergeAll (s : TOptState) (g : TGate) (is : List Nat) : Res (TOptState × TGate) :=
  is.foldlM (fun (a : TOptState × TGate) i => do
    let p ← elemAt a.1.pool i
    let r ← mergeTagged p a.2
    pure ({ a.1 with phase := a.1.phase + r.2, log := a.1.log ++ [(p, a.2)] }, r.1)) (s, g)

/-- /repo/src/circuit/circuit.cpp:409-468 -/
noncomputable def TOptState.mergeable (s : TOptState) (maxBlock : Nat) (g : TGate) : Res TOptState := do
  let is ← s.waitingIndices (.inl g)
  if is = [] then s.wait g
  else do
    let m ← s.shouldMerge maxBlock g is
    if m then do
      let r ← s.mergeAll g is
      r.1.wait r.2
    else do
      let s ← s.pushAll is
      s.wait g

/-- /repo/src/circuit/circuit.cpp:393-398 -/
def TOptState.pushItem (s : TOptState) (g : TItem) (c : Option Condition) : Res TOptState := do
  let is ← s.waitingIndices g
  let s ← s.pushAll is
  s.push g c

/-- /repo/src/circuit/circuit.cpp:389-469: the body of the main loop -/
noncomputable def TOptState.step (maxBlock : Nat) (s : TOptState) (c : Option Condition) (g : TItem) : Res TOptState :=
  match c, g with
  | none, .inl g =>
    if g.tag = .Probabilistic ∨ g.tag = .Measurement then s.pushItem (.inl g) none
    else if g.tag = .I then .ok s
    else do
      match ← g.freePhase with
      | some φ => pure { s with phase := s.phase + φ }
      | none => s.mergeable maxBlock g
  | c, g => s.pushItem g c

/-- /repo/src/circuit/circuit.cpp:389-391: the main loop -/
noncomputable def TCircuit.optLoop (C : TCircuit) (maxBlock : Nat) (s : TOptState) : Res TOptState :=
  (List.range C.gates.length).foldlM (fun s idx => do
    let g ← elemAt C.gates idx
    let c ← elemAt C.conds idx
    s.step maxBlock c g) s

open Classical in
/-- /repo/src/circuit/circuit.cpp:470-480 -/
noncomputable def TOptState.finish (s : TOptState) : Res TOptState := do
  let gs ← (sortUnique (s.waiting.filterMap id)).mapM (elemAt s.pool)
  let s := { s with gates := s.gates ++ gs.map .inl, conds := s.conds ++ gs.map (fun _ => none) }
  if |s.phase| > 1e-12 then do
    let g ← (GateDesc.globalPhase s.phase [] []).build
    s.push (.inl (.make (.det g))) none
  else pure s

/-- /repo/src/circuit/circuit.cpp:328-486 `optimize` -/
noncomputable def TCircuit.optimize (C : TCircuit) (maxBlock : Nat) : Res (TCircuit × List (TGate × TGate)) := do
  let s ← C.optLoop maxBlock ⟨[], [], 0, [], List.replicate C.plain.requiredQubits none, []⟩
  let s ← s.finish
  pure (⟨s.gates, s.conds⟩, s.log)

/-! ## noise simulation -/

/-- an element of the vector `gates` (/repo/src/circuit/circuit.cpp:517) -/
abbrev TAlt := Gate ⊕ (PGate × String)

/-- the vectors `probs` and `gates` (/repo/src/circuit/circuit.cpp:516-550) -/
def TItem.alternatives : TItem → Res (List ℝ × List TAlt)
  | .inl g =>
    if g.tag = .Probabilistic then
      match g.obj with
      | .prob t => .ok (t.dist, t.gates.map fun u => .inl (.det u))
      | _ => .error (.ub "static_pointer_cast to another class")
    else if g.tag = .Measurement then .error (.throw "Circuit::simulate_noise: Measurement gate is not supported.")
    else .ok ([1], [.inl g.obj])
  | .inr (p, key) =>
    if p.tag = .ParamProbabilistic then
      match p.obj with
      | .prob t => .ok (t.dist, t.gates.map fun | .fixed u => .inl (.det u) | .rot r => .inr (.rot r, key))
      | _ => .error (.ub "static_pointer_cast to another class")
    else .ok ([1], [.inr (p.obj, key)])

/-- an alternative applied to a copy of the batch (/repo/src/circuit/circuit.cpp:579-585): the overloads without register and seed make a register of
no bits and a random engine (/repo/include/scaluq/gate/gate.hpp:328-334) -/
def TAlt.RunsBatched (L B n : Nat) (params : String → Option ℝ) (a : TAlt) (Ψ Ψ' : U64 → ℂ) (f : Option Fault) : Prop :=
  match a with
  | .inl g => ∃ (rnd : Nat → ℝ) (c' : BContext), g.RunsBatched L B n rnd ⟨Ψ, ⟨0, List.replicate B []⟩, 0⟩ c' f ∧ Ψ' = c'.psi
  | .inr (p, key) =>
    match params key with
    | none => Ψ' = Ψ ∧ f = some (.throw "map::at")
    | some θ => ∃ (rnd : Nat → ℝ) (c' : BContext),
        p.RunsBatched L B n rnd (List.replicate B θ) ⟨Ψ, ⟨0, List.replicate B []⟩, 0⟩ c' f ∧ Ψ' = c'.psi

/-- one iteration of /repo/src/circuit/circuit.cpp:577-592 -/
def TInsertAlt (L n : Nat) (params : String → Option ℝ) (s : NoiseState) (newSize : Nat) (used : List (List Nat)) (alts : List TAlt)
    (i : Nat) (t t' : (U64 → ℂ) × List Nat × Nat) (f : Option Fault) : Prop :=
  match alts[i]? with
  | none => t' = t ∧ f = some (.ub "gates[i] out of range")
  | some a => ∃ tmp f1, TAlt.RunsBatched L s.size n params a s.psi tmp f1 ∧
      match f1 with
      | some e => t' = t ∧ f = some e
      | none =>
        match (List.range s.size).foldlM (insertState newSize n tmp used i) t with
        | .error e => t' = t ∧ f = some e
        | .ok r => t' = r ∧ f = none

open Classical in
/-- one iteration of /repo/src/circuit/circuit.cpp:515-595 -/
def TNoiseStep (L n : Nat) (draws : Nat → Nat) (params : String → Option ℝ) (g : TItem) (s s' : NoiseState) (f : Option Fault) : Prop :=
  match g.alternatives with
  | .error e => s' = s ∧ f = some e
  | .ok (probs, alts) =>
    if WeightsOK probs then
      match countDraws draws probs.length s.size s.counts s.pos with
      | .error e => s' = s ∧ f = some e
      | .ok (used, newSize, pos) => ∃ junk t,
          SeqRun (TInsertAlt L n params s newSize used alts) (List.range probs.length) (junk, List.replicate newSize 0, 0) t f ∧
          s' = ⟨newSize, t.1, t.2.1, pos⟩
    else s' = s ∧ f = some (.ub "discrete_distribution: weights must be non-negative with a positive sum")

/-- /repo/src/circuit/circuit.cpp:501-601 `simulate_noise` -/
def TCircuit.SimulatesNoise (L n : Nat) (draws : Nat → Nat) (params : String → Option ℝ) (C : TCircuit) (ψ : U64 → ℂ) (shots : Nat)
    (out : Res (List ((U64 → ℂ) × Int))) : Prop :=
  match C.plain.checkQubits n with
  | .error e => out = .error e
  | .ok _ => ∃ junk s f, SeqRun (TNoiseStep L n draws params) C.gates ⟨1, putSlot n 0 ψ junk, [shots], 0⟩ s f ∧
      out = match f with
        | some e => .error e
        | none => s.result n

/-! ## gradient -/

/-- `param_coef()`: /repo/include/scaluq/gate/param_gate.hpp:96; a probabilistic gate has the default 1 -/
def PGate.coefficient : PGate → ℝ
  | .rot (.axis _ _ pcoef) => pcoef
  | .rot (.pauli _ pcoef) => pcoef
  | .prob _ => 1

/-- `scale` (/repo/src/circuit/circuit.cpp:676-703) -/
noncomputable def TPGate.scale (eps : ℝ) (p : TPGate) : Res ℝ :=
  if p.tag = .ParamPauliRotation then
    match p.obj with
    | .rot (.pauli g pcoef) => PGate.scale eps (.rot (.pauli g pcoef))
    | _ => .error (.ub "static_pointer_cast to another class")
  else checkScale (p.obj.coefficient * 1)

/-- the derivative part of one iteration (/repo/src/circuit/circuit.cpp:672-709) -/
def TItem.Contributes (L n : Nat) (eps : ℝ) (g : TItem) (s s' : GradState) (f : Option Fault) : Prop :=
  match g with
  | .inl _ => s' = s ∧ f = none
  | .inr (p, key) =>
    match p.scale eps with
    | .error e => s' = s ∧ f = some e
    | .ok scale => ∃ (A : U64 → ℂ) (f1 : Option Fault), p.obj.UpdatesState L n (-Real.pi / scale) s.psi A f1 ∧
      match f1 with
      | some e => s' = s ∧ f = some e
      | none =>
        match innerProduct n n s.bi A with
        | .error e => s' = s ∧ f = some e
        | .ok ip => s' = { s with grad := gradAdd s.grad key (-scale * ip.re) } ∧ f = none

/-- one iteration (/repo/src/circuit/circuit.cpp:669-732); the second part (711-731) does not ask for types -/
def TItem.GradStep (L n : Nat) (eps : ℝ) (params : String → Option ℝ) (g : TItem) (s s' : GradState) (f : Option Fault) : Prop :=
  ∃ (s1 : GradState) (f1 : Option Fault), TItem.Contributes L n eps g s s1 f1 ∧
    match f1 with
    | some e => s' = s1 ∧ f = some e
    | none => Item.Undone L n params g.plain s1 s' f

/-- one iteration with the checked access `get_gate_at(i)` -/
def TCircuit.GradAt (L n : Nat) (eps : ℝ) (params : String → Option ℝ) (C : TCircuit) (i : Nat) (s s' : GradState)
    (f : Option Fault) : Prop :=
  match C.gates[i]? with
  | none => s' = s ∧ f = some (.throw "Circuit::get_gate_at(std::uint64_t): index out of bounds")
  | some g => TItem.GradStep L n eps params g s s' f

/-- /repo/src/circuit/circuit.cpp:659-735 -/
def TCircuit.Backprops (L n : Nat) (eps : ℝ) (params : String → Option ℝ) (C : TCircuit) (ψ b : U64 → ℂ) (s' : GradState)
    (f : Option Fault) : Prop :=
  SeqRun (C.GradAt L n eps params) (List.range C.gates.length).reverse
    ⟨ψ, b, fun k => if k ∈ C.plain.keySet then some 0 else none⟩ s' f

/-- /repo/src/circuit/circuit.cpp:756-772 `compute_expectation_gradient` -/
def TCircuit.Gradient (L : Nat) (eps : ℝ) (rnd : Nat → ℝ) (params : String → Option ℝ) (C : TCircuit) (obs : Op) (junk : U64 → ℂ)
    (r : Res (String → Option ℝ)) : Prop :=
  if obs.hermitian = false then r = .error (.throw "Circuit::compute_expectation_gradient: observable must be Hermitian.")
  else
    let n := C.plain.requiredQubits
    match shl1 n with
    | .error e => r = .error e
    | .ok _ => ∃ ψ0 ψ : U64 → ℂ, ∃ f1 : Option Fault,
      DRuns (2 ^ n) (.par (2 ^ n) (fill (2 ^ n) fun i => if i = 0 then (1 : ℂ) else 0)) junk ψ0 ∧
      C.RunsPlain L n rnd params ψ0 ψ f1 ∧
      match f1 with
      | some e => r = .error e
      | none => ∃ b : U64 → ℂ, obs.Applies (2 ^ n) ψ b ∧ ∃ (s' : GradState) (f : Option Fault),
        C.Backprops L n eps params ψ b s' f ∧
        match f with
        | some e => r = .error e
        | none => r = .ok s'.grad

/-! ## OpenQASM export -/

/-- /repo/src/qasm/qasm2.cpp:742-814 `classify_gate_for_export`: the lists of qubits are asked for first, and a probabilistic gate refuses -/
noncomputable def TGate.classify (g : TGate) : Res OpView :=
  match g.obj, g.tag with
  | .prob t, _ => classifyGate (.prob t)
  | _, .Unknown => .ok .unsupported
  | o, _ => classifyGate o

/-- an entry of the circuit (/repo/src/qasm/qasm2.cpp:993-998) -/
noncomputable def TItem.classify : TItem → Res OpView
  | .inl g => g.classify
  | .inr _ => .ok .unsupported

/-- one iteration of /repo/src/qasm/qasm2.cpp:992-1005 -/
noncomputable def tdumpStep (lib : Libc) (s : Nat × Nat × Text) (g : TItem) : Res (Nat × Nat × Text) := do
  let view ← g.classify
  match ← lowerView lib view with
  | none => pure s
  | some op => pure (max s.1 op.required.1, max s.2.1 op.required.2, s.2.2 ++ writeOp op ++ t! "\n")

/-- /repo/src/qasm/qasm2.cpp:987-1023 `dumps` -/
noncomputable def TCircuit.dumps (lib : Libc) (C : TCircuit) (nQubits : Option Nat) : Res Text := do
  let (requiredQ, requiredC, body) ← C.gates.foldlM (tdumpStep lib) (0, 0, [])
  if nQubits.any (fun n => decide (n < requiredQ)) then
    .error (.throw "specified n_qubits is smaller than circuit operands")
  else if nQubits.getD requiredQ = 0 then .error (.throw "OpenQASM 2.0 export requires at least one qubit")
  else pure (t! "OPENQASM 2.0;\n" ++ t! "include \"qelib1.inc\";\n" ++ t! "qreg q[" ++ decimal (nQubits.getD requiredQ) ++ t! "];\n" ++
    (if requiredC ≠ 0 then t! "creg c[" ++ decimal requiredC ++ t! "];\n" else []) ++ body)

end Verif.Model
