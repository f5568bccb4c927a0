import Verif.Model.GatePtr
import Verif.Model.Circuit

/-!
# Execution spaces

The gates with a matrix are objects of `DenseMatrixGateImpl<Prec, Space>` and `SparseMatrixGateImpl<Prec, Space>`; their update functions for
states of another execution space throw (/repo/src/gate/gate_matrix.cpp:110-159, 203-229).  The other models describe one space; here every
gate object carries the space of its class (without meaning for the classes that have none), and states live in a space `s`.  The factories,
`get_inverse`, circuits and the update functions are those of `Model/UGate.lean`, `Model/RandomGate.lean`, `Model/ParamGate.lean` and
`Model/Circuit.lean` otherwise.  `merge_gate<Prec, Space>` and `optimize<Space>` are not modelled with spaces.
-/

namespace Verif.Model
open Verif Verif.Spec

/-- a gate object without randomness and the execution space among the template arguments of its class, if it has one -/
structure SUGate where
  gate : UGate
  space : Space

/-- `gate::DenseMatrix<Prec, Space>`, `gate::SparseMatrix<Prec, Space>` (/repo/include/scaluq/gate/gate_factory.hpp:338-388) and the factories
without a space -/
noncomputable def SUGate.build (s : Space) (d : GateDesc) : Res SUGate := do
  let g ← d.build
  pure ⟨g, s⟩

/-- is the class a template with an execution space (/repo/include/scaluq/gate/gate_matrix.hpp:13-14, 61-62)? -/
def UGate.hasSpace : UGate → Bool
  | .dense _ => true
  | .sparse _ => true
  | _ => false

/-- `GateSpace == TargetSpace` fails for states of space `s` (/repo/src/gate/gate_matrix.cpp:114, 207) -/
def SUGate.foreign (s : Space) (g : SUGate) : Bool := g.gate.hasSpace && decide (g.space ≠ s)

/-- the exception of /repo/src/gate/gate_matrix.cpp:146-149 and 215-218 -/
def spaceFault : Fault := .throw "Trying to run on another execution space, but the gate is defined on different execution space."

/-- `get_inverse`: /repo/src/gate/gate_matrix.cpp:38-50 constructs an object of the same class -/
noncomputable def SUGate.inverse (g : SUGate) : Res SUGate := do
  let g' ← g.gate.inverse
  pure ⟨g', g.space⟩

/-- `update_quantum_state(context)` of a gate for a state of space `s`: /repo/src/gate/gate_matrix.cpp:110-152, 203-220; the test comes before
the bounds check -/
def SUGate.RunsOn (s : Space) (L n : Nat) (g : SUGate) (c c' : Context) (f : Option Fault) : Prop :=
  if g.foreign s then c' = c ∧ f = some spaceFault else g.gate.RunsOn L n c c' f

/-- the same through a view (`UGate.RunsOnView`) -/
def SUGate.RunsOnView (s : Space) (L n : Nat) (g : SUGate) (c c' : Context) (f : Option Fault) : Prop :=
  if g.foreign s then c' = c ∧ f = some spaceFault else g.gate.RunsOnView L n c c' f

/-- a table with its gates replaced -/
def ProbTable.map {G H : Type} (φ : G → H) (t : ProbTable G) : ProbTable H := ⟨t.dist, t.cum, t.gates.map φ⟩

/-- `Gate<Prec>` (`Gate` of `Model/RandomGate.lean`) -/
inductive SGate where
  | det (g : SUGate)
  | prob (t : ProbTable SUGate)
  | meas (g : MeasGate)

/-- without the spaces -/
def SGate.plain : SGate → Gate
  | .det g => .det g.gate
  | .prob t => .prob (t.map SUGate.gate)
  | .meas g => .meas g

/-- a gate as entry of a probabilistic gate -/
def SGate.component : SGate → Component SUGate
  | .det g => .leaf g
  | .prob t => .nested t
  | .meas _ => .measurement

/-- `gate::Probabilistic` (/repo/include/scaluq/gate/gate_factory.hpp:389-394) -/
noncomputable def mkProbabilisticS (dist : List (Option ℝ)) (gates : List SGate) : Res SGate := do
  let t ← mkProbTable dist (gates.map SGate.component)
  pure (.prob t)

/-- `get_inverse` of any gate (`Gate.inverse`) -/
noncomputable def SGate.inverse : SGate → Res SGate
  | .det g => do
    let g' ← g.inverse
    pure (.det g')
  | .prob t => do
    let gs ← t.gates.mapM SUGate.inverse
    let t' ← mkProbTable (t.dist.map some) (gs.map .leaf)
    pure (.prob t')
  | .meas _ => .error (.throw "Measurement::get_inverse: Measurement gate doesn't have inverse gate")

/-- `update_quantum_state(context)` of any gate (`Gate.RunsOn`) -/
def SGate.RunsOn (s : Space) (L n : Nat) (rnd : Nat → ℝ) (g : SGate) (c c' : Context) (f : Option Fault) : Prop :=
  match g with
  | .det g => g.RunsOn s L n c c' f
  | .prob t =>
    match t.select (rnd c.pos) with
    | .error e => c' = { c with pos := c.pos + 1 } ∧ f = some e
    | .ok u => u.RunsOn s L n { c with pos := c.pos + 1 } c' f
  | .meas g => g.RunsOn L n rnd c c' f

/-- through a view (`Gate.RunsOnView`) -/
def SGate.RunsOnView (s : Space) (L n : Nat) (rnd : Nat → ℝ) (g : SGate) (c c' : Context) (f : Option Fault) : Prop :=
  match g with
  | .det g => g.RunsOnView s L n c c' f
  | .prob t =>
    match t.select (rnd c.pos) with
    | .error e => c' = { c with pos := c.pos + 1 } ∧ f = some e
    | .ok u => u.RunsOnView s L n { c with pos := c.pos + 1 } c' f
  | .meas g => g.RunsOn L n rnd c c' f

/-- `update_quantum_state(batched context)` of any gate (`Gate.RunsBatched`); matrix gates: /repo/src/gate/gate_matrix.cpp:154, 156, 222, 224 -/
def SGate.RunsBatched (s : Space) (L B n : Nat) (rnd : Nat → ℝ) (g : SGate) (c c' : BContext) (f : Option Fault) : Prop :=
  match g with
  | .det g => if g.foreign s then c' = c ∧ f = some spaceFault else (Gate.det g.gate).RunsBatched L B n rnd c c' f
  | .prob t => SeqRun (SlotStep n (SGate.RunsOnView s L n rnd (.prob t))) (List.range B) c c' f
  | .meas g => (Gate.meas g).RunsBatched L B n rnd c c' f

/-- an entry of a parametric probabilistic gate (`PLeaf`) -/
inductive SPLeaf where
  | fixed (g : SUGate)
  | rot (r : PRot)

/-- `ParamGate<Prec>` (`PGate`) -/
inductive SPGate where
  | rot (r : PRot)
  | prob (t : ProbTable SPLeaf)

/-- without the spaces -/
def SPLeaf.plain : SPLeaf → PLeaf
  | .fixed g => .fixed g.gate
  | .rot r => .rot r

/-- without the spaces -/
def SPGate.plain : SPGate → PGate
  | .rot r => .rot r
  | .prob t => .prob (t.map SPLeaf.plain)

/-- `get_inverse` of one entry (`PLeaf.inverse`) -/
noncomputable def SPLeaf.inverse : SPLeaf → Res SPLeaf
  | .fixed g => do
    let g' ← g.inverse
    pure (.fixed g')
  | .rot r => pure (.rot r.inverse)

/-- `get_inverse` (`PGate.inverse`) -/
noncomputable def SPGate.inverse : SPGate → Res SPGate
  | .rot r => pure (.rot r.inverse)
  | .prob t => do
    let gs ← t.gates.mapM SPLeaf.inverse
    let t' ← mkProbTable (t.dist.map some) (gs.map .leaf)
    pure (.prob t')

/-- `update_quantum_state` of an entry (`PLeaf.RunsOn`) -/
def SPLeaf.RunsOn (s : Space) (L n : Nat) (param : ℝ) (g : SPLeaf) (c c' : Context) (f : Option Fault) : Prop :=
  match g with
  | .fixed g => g.RunsOn s L n c c' f
  | .rot r => r.RunsOn L n param c c' f

/-- through a view (`PLeaf.RunsOnView`) -/
def SPLeaf.RunsOnView (s : Space) (L n : Nat) (param : ℝ) (g : SPLeaf) (c c' : Context) (f : Option Fault) : Prop :=
  match g with
  | .fixed g => g.RunsOnView s L n c c' f
  | .rot r => r.RunsOn L n param c c' f

/-- `update_quantum_state(context, param)` (`PGate.RunsOn`) -/
def SPGate.RunsOn (s : Space) (L n : Nat) (rnd : Nat → ℝ) (param : ℝ) (g : SPGate) (c c' : Context) (f : Option Fault) : Prop :=
  match g with
  | .rot r => r.RunsOn L n param c c' f
  | .prob t =>
    match t.select (rnd c.pos) with
    | .error e => c' = { c with pos := c.pos + 1 } ∧ f = some e
    | .ok u => u.RunsOn s L n param { c with pos := c.pos + 1 } c' f

/-- through a view (`PGate.RunsOnView`) -/
def SPGate.RunsOnView (s : Space) (L n : Nat) (rnd : Nat → ℝ) (param : ℝ) (g : SPGate) (c c' : Context) (f : Option Fault) : Prop :=
  match g with
  | .rot r => r.RunsOn L n param c c' f
  | .prob t =>
    match t.select (rnd c.pos) with
    | .error e => c' = { c with pos := c.pos + 1 } ∧ f = some e
    | .ok u => u.RunsOnView s L n param { c with pos := c.pos + 1 } c' f

/-- one iteration of the loop over the slots (`PGate.SlotRun`) -/
def SPGate.SlotRun (s : Space) (L n : Nat) (rnd : Nat → ℝ) (params : List ℝ) (g : SPGate) (b : Nat) (c c' : BContext)
    (f : Option Fault) : Prop :=
  match params[b]? with
  | none => c' = c ∧ f = some (.ub "params[i] out of range")
  | some p => SlotStep n (g.RunsOnView s L n rnd p) b c c' f

/-- `update_quantum_state(batched context, params)` (`PGate.RunsBatched`) -/
def SPGate.RunsBatched (s : Space) (L B n : Nat) (rnd : Nat → ℝ) (params : List ℝ) (g : SPGate) (c c' : BContext)
    (f : Option Fault) : Prop :=
  match g with
  | .rot r => r.RunsBatched B n params c c' f
  | .prob t => SeqRun (SPGate.SlotRun s L n rnd params (.prob t)) (List.range B) c c' f

/-- `Circuit::GateWithKey` (/repo/include/scaluq/circuit/circuit.hpp:32) -/
abbrev SItem := SGate ⊕ (SPGate × String)

/-- without the spaces -/
def SItem.plain : SItem → Item
  | .inl g => .inl g.plain
  | .inr (p, key) => .inr (p.plain, key)

/-- `Circuit` (/repo/include/scaluq/circuit/circuit.hpp:204-205) -/
structure SCircuit where
  gates : List SItem
  conds : List (Option Condition)

/-- without the spaces -/
def SCircuit.plain (C : SCircuit) : Circuit := ⟨C.gates.map SItem.plain, C.conds⟩

/-- one entry whose condition holds (`Item.RunsOn`, /repo/src/circuit/circuit.cpp:115-138) -/
def SItem.RunsOn (s : Space) (L n : Nat) (rnd : Nat → ℝ) (params : String → Option ℝ) (g : SItem) (c c' : Context × U64)
    (f : Option Fault) : Prop :=
  if c.2 &&& Item.operandMask (SItem.plain g) ≠ 0 then
    c' = c ∧ f = some (.throw "gate touches a qubit that was measured and has not been reset.")
  else match g with
    | .inl g => g.RunsOn s L n rnd c.1 c'.1 f ∧ c'.2 = if f = none then c.2 ||| g.plain.unresetMask else c.2
    | .inr (p, key) =>
      match params key with
      | none => c' = c ∧ f = some (.throw "map::at")
      | some θ => p.RunsOn s L n rnd θ c.1 c'.1 f ∧ c'.2 = c.2

/-- one iteration of /repo/src/circuit/circuit.cpp:110-139 (`Circuit.StepOn`) -/
def SCircuit.StepOn (s : Space) (L n : Nat) (rnd : Nat → ℝ) (params : String → Option ℝ) (C : SCircuit) (idx : Nat) (c c' : Context × U64)
    (f : Option Fault) : Prop :=
  match C.conds[idx]?, C.gates[idx]? with
  | some cond, some g =>
    match evalCond cond c.1.reg with
    | .error e => c' = c ∧ f = some e
    | .ok false => c' = c ∧ f = none
    | .ok true => SItem.RunsOn s L n rnd params g c c' f
  | _, _ => c' = c ∧ f = some (.ub "_classical_conditions[idx] out of range")

/-- /repo/src/circuit/circuit.cpp:90-140 `update_quantum_state` for a state of space `s`; the checks before the loop do not look at spaces -/
def SCircuit.RunsOn (s : Space) (L n : Nat) (rnd : Nat → ℝ) (params : String → Option ℝ) (C : SCircuit) (ψ : U64 → ℂ) (reg : List Bool)
    (c' : Context) (f : Option Fault) : Prop :=
  match C.plain.check n params with
  | .error e => c' = ⟨ψ, reg, 0⟩ ∧ f = some e
  | .ok _ => ∃ mask, SeqRun (C.StepOn s L n rnd params) (List.range C.gates.length) (⟨ψ, reg, 0⟩, 0) (c', mask) f

/-- one slot of a conditional entry (`Item.CondSlot`, /repo/src/circuit/circuit.cpp:193-206) -/
def SItem.CondSlot (s : Space) (L n : Nat) (rnd : Nat → ℝ) (params : String → Option (List ℝ)) (cond : Condition) (g : SItem) (b : Nat)
    (c c' : BContext) (f : Option Fault) : Prop :=
  match c.reg.regs[b]? with
  | none => c' = c ∧ f = some (.throw "ClassicalRegisterBatched: batch index out of bounds")
  | some r =>
    match cond r with
    | .error e => c' = c ∧ f = some e
    | .ok false => c' = c ∧ f = none
    | .ok true =>
      match g with
      | .inl g => SlotStep n (g.RunsOnView s L n rnd) b c c' f
      | .inr (p, key) =>
        match params key with
        | none => c' = c ∧ f = some (.throw "map::at")
        | some v =>
          match v[b]? with
          | none => c' = c ∧ f = some (.ub "parameters.at(key)[batch_index] out of range")
          | some θ => SlotStep n (p.RunsOnView s L n rnd θ) b c c' f

/-- an unconditional entry (`Item.RunsBatched`, /repo/src/circuit/circuit.cpp:209-230) -/
def SItem.RunsBatched (s : Space) (L B n : Nat) (rnd : Nat → ℝ) (params : String → Option (List ℝ)) (g : SItem) (c c' : BContext × U64)
    (f : Option Fault) : Prop :=
  if c.2 &&& Item.operandMask (SItem.plain g) ≠ 0 then
    c' = c ∧ f = some (.throw "gate touches a qubit that was measured and has not been reset.")
  else match g with
    | .inl g => g.RunsBatched s L B n rnd c.1 c'.1 f ∧ c'.2 = if f = none then c.2 ||| g.plain.unresetMask else c.2
    | .inr (p, key) =>
      match params key with
      | none => c' = c ∧ f = some (.throw "map::at")
      | some v => p.RunsBatched s L B n rnd v c.1 c'.1 f ∧ c'.2 = c.2

/-- one iteration of /repo/src/circuit/circuit.cpp:190-231 (`Circuit.StepBatched`) -/
def SCircuit.StepBatched (s : Space) (L B n : Nat) (rnd : Nat → ℝ) (params : String → Option (List ℝ)) (C : SCircuit) (idx : Nat)
    (c c' : BContext × U64) (f : Option Fault) : Prop :=
  match C.conds[idx]?, C.gates[idx]? with
  | some (some cond), some g => SeqRun (SItem.CondSlot s L n rnd params cond g) (List.range B) c.1 c'.1 f ∧ c'.2 = c.2
  | some none, some g => SItem.RunsBatched s L B n rnd params g c c' f
  | _, _ => c' = c ∧ f = some (.ub "_classical_conditions[idx] out of range")

/-- /repo/src/circuit/circuit.cpp:158-232 `update_quantum_state` for a batch of space `s` -/
def SCircuit.RunsBatched (s : Space) (L B n : Nat) (rnd : Nat → ℝ) (params : String → Option (List ℝ)) (C : SCircuit) (Ψ : U64 → ℂ)
    (reg : BReg) (c' : BContext) (f : Option Fault) : Prop :=
  match C.plain.checkBatched B n reg params with
  | .error e => c' = ⟨Ψ, reg, 0⟩ ∧ f = some e
  | .ok _ => ∃ mask, SeqRun (C.StepBatched s L B n rnd params) (List.range C.gates.length) (⟨Ψ, reg, 0⟩, 0) (c', mask) f

/-- `get_inverse()` of an entry (`Item.inverse`) -/
noncomputable def SItem.inverse : SItem → Res SItem
  | .inl g => do
    let g' ← g.inverse
    pure (.inl g')
  | .inr (p, key) => do
    let p' ← p.inverse
    pure (.inr (p', key))

/-- one iteration of /repo/src/circuit/circuit.cpp:313-324 (`Circuit.inverseStep`) -/
noncomputable def SCircuit.inverseStep (C : SCircuit) (D : SCircuit) (idx : Nat) : Res SCircuit :=
  match C.gates[C.gates.length - 1 - idx]? with
  | none => .error (.ub "_gate_list[] out of range")
  | some g => do
    let g' ← SItem.inverse g
    match C.conds[sub64 (sub64 C.conds.length 1) idx]? with
    | none => .error (.ub "_classical_conditions[] out of range")
    | some c => pure ⟨D.gates ++ [g'], D.conds ++ [c]⟩

/-- /repo/src/circuit/circuit.cpp:309-326 `get_inverse` -/
noncomputable def SCircuit.inverse (C : SCircuit) : Res SCircuit :=
  (List.range C.gates.length).foldlM C.inverseStep ⟨[], []⟩

/-- /repo/src/circuit/circuit.cpp:51-62 `add_circuit` -/
def SCircuit.addCircuit (C D : SCircuit) : SCircuit := ⟨C.gates ++ D.gates, C.conds ++ D.conds⟩

end Verif.Model
