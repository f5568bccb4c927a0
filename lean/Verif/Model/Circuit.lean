import Verif.Model.ParamGate
import Verif.Model.Operator
import Mathlib.Data.Finset.Dedup

/-!
# Circuits

Model of /repo/include/scaluq/circuit/circuit.hpp and /repo/src/circuit/circuit.cpp (construction, `update_quantum_state`,
`get_inverse`, `calculate_depth`).  A classical condition is a function of the register that may throw; that it has no side effects is
assumed.  `std::map` parameters are partial functions on the keys.
-/

namespace Verif.Model
open Verif Verif.Spec

/-- `Circuit::GateWithKey` (/repo/include/scaluq/circuit/circuit.hpp:32) -/
abbrev Item := Gate ⊕ (PGate × String)

/-- `ClassicalCondition` (/repo/include/scaluq/circuit/circuit.hpp:27) -/
abbrev Condition := List Bool → Res Bool

/-- `Circuit` (/repo/include/scaluq/circuit/circuit.hpp:204-205): two vectors -/
structure Circuit where
  gates : List Item
  conds : List (Option Condition)

/-- `Circuit()` -/
def Circuit.empty : Circuit := ⟨[], []⟩

/-- /repo/include/scaluq/circuit/circuit.hpp:63-66 -/
def Circuit.addGate (C : Circuit) (g : Gate) : Circuit := ⟨C.gates ++ [.inl g], C.conds ++ [none]⟩

/-- /repo/include/scaluq/circuit/circuit.hpp:67-70 -/
def Circuit.addParamGate (C : Circuit) (g : PGate) (key : String) : Circuit := ⟨C.gates ++ [.inr (g, key)], C.conds ++ [none]⟩

/-- `_classical_conditions.back() = condition` -/
def setBack (l : List (Option Condition)) (c : Condition) : List (Option Condition) := l.dropLast ++ [some c]

/-- /repo/include/scaluq/circuit/circuit.hpp:71-74 -/
def Circuit.addConditionalGate (C : Circuit) (g : Gate) (cond : Condition) : Circuit :=
  let C' := C.addGate g
  { C' with conds := setBack C'.conds cond }

/-- /repo/include/scaluq/circuit/circuit.hpp:83-88 -/
def Circuit.addConditionalParamGate (C : Circuit) (g : PGate) (key : String) (cond : Condition) : Circuit :=
  let C' := C.addParamGate g key
  { C' with conds := setBack C'.conds cond }

/-- the lambda of /repo/include/scaluq/circuit/circuit.hpp:78-81 and 96-99; reading the register is
/repo/include/scaluq/classical_register/classical_register.hpp:27-33 -/
def bitCondition (i : Nat) (expected : Bool) : Condition := fun reg =>
  match reg[i]? with
  | none => .error (.throw "ClassicalRegister::operator[](std::uint64_t): index out of bounds")
  | some b => .ok (b == expected)

/-- /repo/src/circuit/circuit.cpp:51-62 `add_circuit` -/
def Circuit.addCircuit (C D : Circuit) : Circuit := ⟨C.gates ++ D.gates, C.conds ++ D.conds⟩

/-- /repo/src/circuit/circuit.cpp:293-307 `copy` -/
def Circuit.copy (C : Circuit) : Circuit :=
  ⟨C.gates.map fun | .inl g => .inl g | .inr (p, k) => .inr (p, k), C.conds⟩

/-- `operand_qubit_mask()` of an entry -/
def Item.operandMask : Item → U64
  | .inl g => g.operandMask
  | .inr (p, _) => p.operandMask

/-- /repo/src/circuit/circuit.cpp:625-633 `required_n_qubits` -/
def Circuit.requiredQubits (C : Circuit) : Nat := bitWidth (C.gates.foldl (fun m g => m ||| Item.operandMask g) 0)

/-- /repo/src/circuit/circuit.cpp:9-16 `key_set` -/
def Circuit.keySet (C : Circuit) : Finset String := C.gates.foldl (fun s g => match g with
  | .inl _ => s
  | .inr (_, k) => insert k s) ∅

/-- /repo/src/circuit/circuit.cpp:635-641 `check_state_vector_n_qubits` -/
def Circuit.checkQubits (C : Circuit) (n : Nat) : Res Unit :=
  if C.requiredQubits > n then
    .error (.throw "Circuit::update_quantum_state: state does not have enough qubits for this circuit.")
  else .ok ()

/-- /repo/src/circuit/circuit.cpp:643-652 `has_classical_instructions` -/
def Circuit.hasClassical (C : Circuit) : Bool :=
  C.conds.any Option.isSome || C.gates.any fun | .inl (.meas _) => true | _ => false

/-- the loop /repo/src/circuit/circuit.cpp:97-106 -/
def checkKeys {α : Type} (params : String → Option α) : List Item → Res Unit
  | [] => .ok ()
  | .inl _ :: gs => checkKeys params gs
  | .inr (_, key) :: gs =>
    match params key with
    | none => .error (.throw ("parameter named " ++ key ++ "is not given."))
    | some _ => checkKeys params gs

/-- the value of an entry's condition (/repo/src/circuit/circuit.cpp:111-114) -/
def evalCond (c : Option Condition) (reg : List Bool) : Res Bool :=
  match c with
  | none => .ok true
  | some f => f reg

/-- what a gate adds to `unreset_measured_qubit_mask` (/repo/src/circuit/circuit.cpp:124-129) -/
def Gate.unresetMask : Gate → U64
  | .meas g => if g.reset then 0 else g.o.t
  | _ => 0

/-- one entry whose condition holds (/repo/src/circuit/circuit.cpp:115-138); the second component of the state is
`unreset_measured_qubit_mask` -/
def Item.RunsOn (L n : Nat) (rnd : Nat → ℝ) (params : String → Option ℝ) (g : Item) (s s' : Context × U64) (f : Option Fault) : Prop :=
  if s.2 &&& Item.operandMask g ≠ 0 then
    s' = s ∧ f = some (.throw "gate touches a qubit that was measured and has not been reset.")
  else match g with
    | .inl g => g.RunsOn L n rnd s.1 s'.1 f ∧ s'.2 = if f = none then s.2 ||| g.unresetMask else s.2
    | .inr (p, key) =>
      match params key with
      | none => s' = s ∧ f = some (.throw "map::at")
      | some θ => p.RunsOn L n rnd θ s.1 s'.1 f ∧ s'.2 = s.2

/-- one iteration of /repo/src/circuit/circuit.cpp:110-139 -/
def Circuit.StepOn (L n : Nat) (rnd : Nat → ℝ) (params : String → Option ℝ) (C : Circuit) (idx : Nat) (s s' : Context × U64)
    (f : Option Fault) : Prop :=
  match C.conds[idx]?, C.gates[idx]? with
  | some cond, some g =>
    match evalCond cond s.1.reg with
    | .error e => s' = s ∧ f = some e
    | .ok false => s' = s ∧ f = none
    | .ok true => Item.RunsOn L n rnd params g s s' f
  | _, _ => s' = s ∧ f = some (.ub "_classical_conditions[idx] out of range")

/-- the checks before the loop (/repo/src/circuit/circuit.cpp:96-106) -/
def Circuit.check (C : Circuit) (n : Nat) (params : String → Option ℝ) : Res Unit := do
  C.checkQubits n
  checkKeys params C.gates

/-- /repo/src/circuit/circuit.cpp:90-140 `update_quantum_state(state, classical_register, parameters, seed)`; `rnd` are the numbers
drawn from the engine seeded with `seed` -/
def Circuit.RunsOn (L n : Nat) (rnd : Nat → ℝ) (params : String → Option ℝ) (C : Circuit) (ψ : U64 → ℂ) (reg : List Bool)
    (c' : Context) (f : Option Fault) : Prop :=
  match C.check n params with
  | .error e => c' = ⟨ψ, reg, 0⟩ ∧ f = some e
  | .ok _ => ∃ mask, SeqRun (C.StepOn L n rnd params) (List.range C.gates.length) (⟨ψ, reg, 0⟩, 0) (c', mask) f

/-- /repo/src/circuit/circuit.cpp:76-88: the overload without register -/
def Circuit.RunsPlain (L n : Nat) (rnd : Nat → ℝ) (params : String → Option ℝ) (C : Circuit) (ψ ψ' : U64 → ℂ)
    (f : Option Fault) : Prop :=
  if C.hasClassical then
    ψ' = ψ ∧ f = some (.throw "a classical register is required when the circuit contains measurement or classically controlled instructions.")
  else ∃ c', C.RunsOn L n rnd params ψ [] c' f ∧ ψ' = c'.psi

/-! ## batches -/

/-- the loop /repo/src/circuit/circuit.cpp:170-185 -/
def checkKeysBatched (B : Nat) (params : String → Option (List ℝ)) : List Item → Res Unit
  | [] => .ok ()
  | .inl _ :: gs => checkKeysBatched B params gs
  | .inr (_, key) :: gs =>
    match params key with
    | none => .error (.throw ("parameter named " ++ key ++ "is not given."))
    | some v => if v.length ≠ B then .error (.throw "parameter size mismatch.") else checkKeysBatched B params gs

/-- the checks before the loop (/repo/src/circuit/circuit.cpp:164-185) -/
def Circuit.checkBatched (C : Circuit) (B n : Nat) (reg : BReg) (params : String → Option (List ℝ)) : Res Unit := do
  C.checkQubits n
  if reg.regs.length ≠ B then .error (.throw "batch size mismatch.") else pure ()
  checkKeysBatched B params C.gates

/-- one slot of a conditional entry (/repo/src/circuit/circuit.cpp:193-206): there is no test of the mask, and the
gate works on a view -/
def Item.CondSlot (L n : Nat) (rnd : Nat → ℝ) (params : String → Option (List ℝ)) (cond : Condition) (g : Item) (b : Nat)
    (c c' : BContext) (f : Option Fault) : Prop :=
  match c.reg.regs[b]? with
  | none => c' = c ∧ f = some (.throw "ClassicalRegisterBatched: batch index out of bounds")
  | some r =>
    match cond r with
    | .error e => c' = c ∧ f = some e
    | .ok false => c' = c ∧ f = none
    | .ok true =>
      match g with
      | .inl g => SlotStep n (g.RunsOnView L n rnd) b c c' f
      | .inr (p, key) =>
        match params key with
        | none => c' = c ∧ f = some (.throw "map::at")
        | some v =>
          match v[b]? with
          | none => c' = c ∧ f = some (.ub "parameters.at(key)[batch_index] out of range")
          | some θ => SlotStep n (p.RunsOnView L n rnd θ) b c c' f

/-- an unconditional entry (/repo/src/circuit/circuit.cpp:209-230) -/
def Item.RunsBatched (L B n : Nat) (rnd : Nat → ℝ) (params : String → Option (List ℝ)) (g : Item) (s s' : BContext × U64)
    (f : Option Fault) : Prop :=
  if s.2 &&& Item.operandMask g ≠ 0 then
    s' = s ∧ f = some (.throw "gate touches a qubit that was measured and has not been reset.")
  else match g with
    | .inl g => g.RunsBatched L B n rnd s.1 s'.1 f ∧ s'.2 = if f = none then s.2 ||| g.unresetMask else s.2
    | .inr (p, key) =>
      match params key with
      | none => s' = s ∧ f = some (.throw "map::at")
      | some v => p.RunsBatched L B n rnd v s.1 s'.1 f ∧ s'.2 = s.2

/-- one iteration of /repo/src/circuit/circuit.cpp:190-231 -/
def Circuit.StepBatched (L B n : Nat) (rnd : Nat → ℝ) (params : String → Option (List ℝ)) (C : Circuit) (idx : Nat)
    (s s' : BContext × U64) (f : Option Fault) : Prop :=
  match C.conds[idx]?, C.gates[idx]? with
  | some (some cond), some g => SeqRun (Item.CondSlot L n rnd params cond g) (List.range B) s.1 s'.1 f ∧ s'.2 = s.2
  | some none, some g => Item.RunsBatched L B n rnd params g s s' f
  | _, _ => s' = s ∧ f = some (.ub "_classical_conditions[idx] out of range")

/-- /repo/src/circuit/circuit.cpp:158-232 `update_quantum_state(states, classical_register, parameters, seed)` -/
def Circuit.RunsBatched (L B n : Nat) (rnd : Nat → ℝ) (params : String → Option (List ℝ)) (C : Circuit) (Ψ : U64 → ℂ) (reg : BReg)
    (c' : BContext) (f : Option Fault) : Prop :=
  match C.checkBatched B n reg params with
  | .error e => c' = ⟨Ψ, reg, 0⟩ ∧ f = some e
  | .ok _ => ∃ mask, SeqRun (C.StepBatched L B n rnd params) (List.range C.gates.length) (⟨Ψ, reg, 0⟩, 0) (c', mask) f

/-! ## inverse -/

/-- `get_inverse()` of an entry (/repo/src/circuit/circuit.cpp:315-321) -/
noncomputable def Item.inverse : Item → Res Item
  | .inl g => do
    let g' ← g.inverse
    pure (.inl g')
  | .inr (p, key) => do
    let p' ← p.inverse
    pure (.inr (p', key))

/-- one iteration of /repo/src/circuit/circuit.cpp:313-324, appending to the circuit under construction -/
noncomputable def Circuit.inverseStep (C : Circuit) (D : Circuit) (idx : Nat) : Res Circuit :=
  match C.gates[C.gates.length - 1 - idx]? with
  | none => .error (.ub "_gate_list[] out of range")
  | some g => do
    let g' ← Item.inverse g
    match C.conds[sub64 (sub64 C.conds.length 1) idx]? with
    | none => .error (.ub "_classical_conditions[] out of range")
    | some c => pure ⟨D.gates ++ [g'], D.conds ++ [c]⟩

/-- /repo/src/circuit/circuit.cpp:309-326 `get_inverse` -/
noncomputable def Circuit.inverse (C : Circuit) : Res Circuit :=
  (List.range C.gates.length).foldlM C.inverseStep .empty

/-! ## depth -/

/-- `control_qubit_list()`; probabilistic gates throw (/repo/include/scaluq/gate/gate_probabilistic.hpp:22-36,
/repo/include/scaluq/gate/param_gate_probabilistic.hpp:27-41) -/
def Item.controlList : Item → Res (List Nat)
  | .inl (.det g) => .ok g.controlQubitList
  | .inl (.prob _) => .error (.throw "ProbabilisticGateImpl::control_qubit_list(): This function must not be used in ProbabilisticGateImpl.")
  | .inl (.meas g) => .ok (maskToVector g.o.c)
  | .inr (.rot r, _) => .ok (maskToVector r.operands.c)
  | .inr (.prob _, _) => .error (.throw "ParamProbabilisticGateImpl::control_qubit_list(): This function must not be used in ParamProbabilisticGateImpl.")

/-- `target_qubit_list()` -/
def Item.targetList : Item → Res (List Nat)
  | .inl (.det g) => .ok g.targetQubitList
  | .inl (.prob _) => .error (.throw "ProbabilisticGateImpl::target_qubit_list(): This function must not be used in ProbabilisticGateImpl.")
  | .inl (.meas g) => .ok (maskToVector g.o.t)
  | .inr (.rot r, _) => .ok (maskToVector r.operands.t)
  | .inr (.prob _, _) => .error (.throw "ParamProbabilisticGateImpl::target_qubit_list(): This function must not be used in ParamProbabilisticGateImpl.")

/-- the loops /repo/src/circuit/circuit.cpp:31-40 -/
def maxStep (filled : List Nat) (qs : List Nat) (m : Nat) : Res Nat :=
  qs.foldlM (fun m q => match filled[q]? with
    | none => .error (.ub "filled_step[] out of range")
    | some s => .ok (if m < s then s else m)) m

/-- the loops /repo/src/circuit/circuit.cpp:41-46 -/
def fillStep (v : Nat) (qs : List Nat) (filled : List Nat) : Res (List Nat) :=
  qs.foldlM (fun l q => if q < l.length then .ok (l.set q v) else .error (.ub "filled_step[] out of range")) filled

/-- one iteration of /repo/src/circuit/circuit.cpp:23-47 -/
def depthStep (filled : List Nat) (g : Item) : Res (List Nat) := do
  let cs ← Item.controlList g
  let ts ← Item.targetList g
  let m ← maxStep filled cs 0
  let m ← maxStep filled ts m
  let filled ← fillStep (m + 1) cs filled
  fillStep (m + 1) ts filled

/-- /repo/src/circuit/circuit.cpp:18-49 `calculate_depth` -/
def Circuit.depth (C : Circuit) : Res Nat :=
  let n := C.requiredQubits
  if n = 0 then .ok 0
  else do
    let filled ← C.gates.foldlM depthStep (List.replicate n 0)
    match filled.max? with
    | none => .error (.ub "dereference of end()")
    | some m => pure m

/-! ## rotations by an observable -/

/-- /repo/include/scaluq/circuit/circuit.hpp:101-122 `add_observable_rotation_gate` -/
noncomputable def Circuit.addObservableRotation (C : Circuit) (obs : Op) (angle : ℝ) (repeats : Int) : Res Circuit :=
  open Classical in
  if obs.hermitian = false then .error (.throw "Circuit::add_observable_rotation_gate: not implemented for non hermitian.")
  else if repeats ≤ 0 then .error (.throw "add_observable_rotation_gate: num_repeats must be > 0.")
  else if |angle| < 1 / 10 ^ 12 then .ok C
  else
    let theta := angle / (repeats : ℝ)
    (List.range repeats.toNat).foldlM (fun C _ => obs.terms.foldlM (fun C p => do
      let g ← GateDesc.build (.pauliRot p theta [] [])
      pure (C.addGate (.det g))) C) C

end Verif.Model
