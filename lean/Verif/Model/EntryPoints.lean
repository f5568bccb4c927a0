import Verif.Model.Circuit

/-!
# The calls `update_quantum_state`

Model of the overloads of `update_quantum_state` that create the execution context (/repo/include/scaluq/gate/gate.hpp:314-347,
/repo/include/scaluq/gate/param_gate.hpp:120-163, /repo/src/circuit/circuit.cpp:76-88, 142-156) and of the functions behind the Python
methods (/repo/include/scaluq/gate/gate.hpp:690-741, /repo/include/scaluq/gate/param_gate.hpp:387-450,
/repo/include/scaluq/circuit/circuit.hpp:219-303).  The overloads for the other execution spaces are textual copies.  The conversion
of the Python objects into the variants is nanobind's and not modelled.
-/

namespace Verif.Model
open Verif Verif.Spec

/-- `ClassicalRegisterVariant` (/repo/include/scaluq/gate/gate.hpp:676-677) -/
inductive RegArg where
  | absent
  | single (reg : List Bool)
  | batched (reg : BReg)

/-- `std::mt19937_64` and `std::random_device`: `engine s` are the numbers drawn after seeding with `s`, `entropy` is what
`std::random_device{}()` answers in this call -/
structure Rng where
  engine : Nat → Nat → ℝ
  entropy : Nat

/-- `std::mt19937_64 random_engine(resolve_seed(seed))` (/repo/include/scaluq/util/random.hpp:11-13) -/
def Rng.seeded (r : Rng) (seed : Option Nat) : Nat → ℝ :=
  match seed with
  | some s => r.engine s
  | none => r.engine r.entropy

/-- `ClassicalRegisterBatched(size, batch_size)` (/repo/include/scaluq/classical_register/classical_register_batched.hpp:21-22) -/
def BReg.zeros (size B : Nat) : BReg := ⟨size, List.replicate B (List.replicate size false)⟩

/-! ## gates -/

/-- /repo/include/scaluq/gate/gate.hpp:314-320 -/
def Gate.CallPlain (R : Rng) (L n : Nat) (g : Gate) (ψ ψ' : U64 → ℂ) (f : Option Fault) : Prop :=
  ∃ c', g.RunsOn L n (R.seeded none) ⟨ψ, List.replicate 0 false, 0⟩ c' f ∧ ψ' = c'.psi

/-- /repo/include/scaluq/gate/gate.hpp:321-327 -/
def Gate.CallReg (R : Rng) (L n : Nat) (g : Gate) (seed : Option Nat) (ψ : U64 → ℂ) (reg : List Bool) (ψ' : U64 → ℂ)
    (reg' : List Bool) (f : Option Fault) : Prop :=
  ∃ c', g.RunsOn L n (R.seeded seed) ⟨ψ, reg, 0⟩ c' f ∧ ψ' = c'.psi ∧ reg' = c'.reg

/-- /repo/include/scaluq/gate/gate.hpp:328-334 -/
def Gate.CallBatch (R : Rng) (L B n : Nat) (g : Gate) (Ψ Ψ' : U64 → ℂ) (f : Option Fault) : Prop :=
  ∃ c', g.RunsBatched L B n (R.seeded none) ⟨Ψ, BReg.zeros 0 B, 0⟩ c' f ∧ Ψ' = c'.psi

/-- /repo/include/scaluq/gate/gate.hpp:335-347 -/
def Gate.CallBatchReg (R : Rng) (L B n : Nat) (g : Gate) (seed : Option Nat) (Ψ : U64 → ℂ) (reg : BReg) (Ψ' : U64 → ℂ) (reg' : BReg)
    (f : Option Fault) : Prop :=
  if reg.regs.length ≠ B then Ψ' = Ψ ∧ reg' = reg ∧ f = some (.throw "GateBase::update_quantum_state: batch size mismatch.")
  else ∃ c', g.RunsBatched L B n (R.seeded seed) ⟨Ψ, reg, 0⟩ c' f ∧ Ψ' = c'.psi ∧ reg' = c'.reg

/-- /repo/include/scaluq/gate/gate.hpp:691-715 `update_gate_state` for a `StateVector` -/
def Gate.Update (R : Rng) (L n : Nat) (g : Gate) (ψ : U64 → ℂ) (a : RegArg) (seed : Option Nat) (ψ' : U64 → ℂ) (a' : RegArg)
    (f : Option Fault) : Prop :=
  match a with
  | .absent =>
    a' = .absent ∧
    match seed with
    | some s => ∃ reg', g.CallReg R L n (some s) ψ (List.replicate 0 false) ψ' reg' f
    | none => g.CallPlain R L n ψ ψ' f
  | .single reg => ∃ reg', g.CallReg R L n (some (seed.getD R.entropy)) ψ reg ψ' reg' f ∧ a' = .single reg'
  | .batched reg => ψ' = ψ ∧ a' = .batched reg ∧ f = some (.throw "ClassicalRegisterBatched cannot be used with StateVector.")

/-- /repo/include/scaluq/gate/gate.hpp:717-741 `update_gate_state` for a `StateVectorBatched` -/
def Gate.UpdateBatch (R : Rng) (L B n : Nat) (g : Gate) (Ψ : U64 → ℂ) (a : RegArg) (seed : Option Nat) (Ψ' : U64 → ℂ) (a' : RegArg)
    (f : Option Fault) : Prop :=
  match a with
  | .absent =>
    a' = .absent ∧
    match seed with
    | some s => ∃ reg', g.CallBatchReg R L B n (some s) Ψ (BReg.zeros 0 B) Ψ' reg' f
    | none => g.CallBatch R L B n Ψ Ψ' f
  | .single reg => Ψ' = Ψ ∧ a' = .single reg ∧ f = some (.throw "ClassicalRegister cannot be used with StateVectorBatched.")
  | .batched reg => ∃ reg', g.CallBatchReg R L B n (some (seed.getD R.entropy)) Ψ reg Ψ' reg' f ∧ a' = .batched reg'

/-! ## parametric gates -/

/-- `ParamValueVariant` (/repo/include/scaluq/gate/param_gate.hpp:385) -/
inductive ParamArg where
  | absent
  | number (t : ℝ)
  | sequence (ts : List ℝ)

/-- /repo/include/scaluq/gate/param_gate.hpp:120-127 -/
def PGate.CallPlain (R : Rng) (L n : Nat) (p : PGate) (t : ℝ) (ψ ψ' : U64 → ℂ) (f : Option Fault) : Prop :=
  ∃ c', p.RunsOn L n (R.seeded none) t ⟨ψ, List.replicate 0 false, 0⟩ c' f ∧ ψ' = c'.psi

/-- /repo/include/scaluq/gate/param_gate.hpp:128-136 -/
def PGate.CallReg (R : Rng) (L n : Nat) (p : PGate) (t : ℝ) (seed : Option Nat) (ψ : U64 → ℂ) (reg : List Bool) (ψ' : U64 → ℂ)
    (reg' : List Bool) (f : Option Fault) : Prop :=
  ∃ c', p.RunsOn L n (R.seeded seed) t ⟨ψ, reg, 0⟩ c' f ∧ ψ' = c'.psi ∧ reg' = c'.reg

/-- /repo/include/scaluq/gate/param_gate.hpp:137-144: no check of the number of parameters -/
def PGate.CallBatch (R : Rng) (L B n : Nat) (p : PGate) (ts : List ℝ) (Ψ Ψ' : U64 → ℂ) (f : Option Fault) : Prop :=
  ∃ c', p.RunsBatched L B n (R.seeded none) ts ⟨Ψ, BReg.zeros 0 B, 0⟩ c' f ∧ Ψ' = c'.psi

/-- /repo/include/scaluq/gate/param_gate.hpp:145-163 -/
def PGate.CallBatchReg (R : Rng) (L B n : Nat) (p : PGate) (ts : List ℝ) (seed : Option Nat) (Ψ : U64 → ℂ) (reg : BReg)
    (Ψ' : U64 → ℂ) (reg' : BReg) (f : Option Fault) : Prop :=
  if reg.regs.length ≠ B then Ψ' = Ψ ∧ reg' = reg ∧ f = some (.throw "ParamGateBase::update_quantum_state: batch size mismatch.")
  else if ts.length ≠ B then Ψ' = Ψ ∧ reg' = reg ∧ f = some (.throw "ParamGateBase::update_quantum_state: parameter size mismatch.")
  else ∃ c', p.RunsBatched L B n (R.seeded seed) ts ⟨Ψ, reg, 0⟩ c' f ∧ Ψ' = c'.psi ∧ reg' = c'.reg

/-- /repo/include/scaluq/gate/param_gate.hpp:387-417 `update_param_gate_state` for a `StateVector` -/
def PGate.Update (R : Rng) (L n : Nat) (p : PGate) (v : ParamArg) (ψ : U64 → ℂ) (a : RegArg) (seed : Option Nat) (ψ' : U64 → ℂ)
    (a' : RegArg) (f : Option Fault) : Prop :=
  match v with
  | .number t =>
    match a with
    | .absent =>
      a' = .absent ∧
      match seed with
      | some s => ∃ reg', p.CallReg R L n t (some s) ψ (List.replicate 0 false) ψ' reg' f
      | none => p.CallPlain R L n t ψ ψ' f
    | .single reg => ∃ reg', p.CallReg R L n t (some (seed.getD R.entropy)) ψ reg ψ' reg' f ∧ a' = .single reg'
    | .batched reg => ψ' = ψ ∧ a' = .batched reg ∧ f = some (.throw "ClassicalRegisterBatched cannot be used with StateVector.")
  | _ => ψ' = ψ ∧ a' = a ∧ f = some (.throw "StateVector requires a float parameter.")

/-- /repo/include/scaluq/gate/param_gate.hpp:419-450 `update_param_gate_state` for a `StateVectorBatched` -/
def PGate.UpdateBatch (R : Rng) (L B n : Nat) (p : PGate) (v : ParamArg) (Ψ : U64 → ℂ) (a : RegArg) (seed : Option Nat)
    (Ψ' : U64 → ℂ) (a' : RegArg) (f : Option Fault) : Prop :=
  match v with
  | .sequence ts =>
    match a with
    | .absent =>
      a' = .absent ∧
      match seed with
      | some s => ∃ reg', p.CallBatchReg R L B n ts (some s) Ψ (BReg.zeros 0 B) Ψ' reg' f
      | none => p.CallBatch R L B n ts Ψ Ψ' f
    | .single reg => Ψ' = Ψ ∧ a' = .single reg ∧ f = some (.throw "ClassicalRegister cannot be used with StateVectorBatched.")
    | .batched reg => ∃ reg', p.CallBatchReg R L B n ts (some (seed.getD R.entropy)) Ψ reg Ψ' reg' f ∧ a' = .batched reg'
  | _ => Ψ' = Ψ ∧ a' = a ∧ f = some (.throw "StateVectorBatched requires a sequence of float parameters.")

/-! ## circuits -/

/-- the overload without register for batches (/repo/src/circuit/circuit.cpp:142-156) -/
def Circuit.RunsBatchedPlain (L B n : Nat) (rnd : Nat → ℝ) (params : String → Option (List ℝ)) (C : Circuit) (Ψ Ψ' : U64 → ℂ)
    (f : Option Fault) : Prop :=
  if C.hasClassical then
    Ψ' = Ψ ∧ f = some (.throw "a classical register is required when the circuit contains measurement or classically controlled instructions.")
  else ∃ c', C.RunsBatched L B n rnd params Ψ (BReg.zeros 0 B) c' f ∧ Ψ' = c'.psi

/-- `CircuitParameterVariant` (/repo/include/scaluq/circuit/circuit.hpp:214-217); a `std::map` as list of its entries -/
inductive DictArg where
  | absent
  | sequences (d : List (String × List ℝ))
  | numbers (d : List (String × ℝ))

/-- the value of a keyword argument -/
inductive KwValue where
  | number (t : ℝ)
  | sequence (ts : List ℝ)
  | other

/-- `nb::cast<double>` -/
def KwValue.asNumber : KwValue → Res ℝ
  | .number t => .ok t
  | _ => .error (.throw "cast")

/-- `nb::cast<std::vector<double>>` -/
def KwValue.asSequence : KwValue → Res (List ℝ)
  | .sequence ts => .ok ts
  | _ => .error (.throw "cast")

/-- the loop over `kwargs` (/repo/include/scaluq/circuit/circuit.hpp:236-243 and 279-286) -/
def kwLoop {α : Type} (dictGiven : Bool) (cast : KwValue → Res α) : List (String × KwValue) → (String → Option α) → Res (String → Option α)
  | [], m => .ok m
  | (k, v) :: kw, m =>
    if dictGiven then .error (.throw "parameters were specified both as dict and kwargs.")
    else do
      let x ← cast v
      kwLoop dictGiven cast kw (fun k' => if k' = k then some x else m k')

/-- `!std::holds_alternative<std::monostate>` -/
def DictArg.isGiven : DictArg → Bool
  | .absent => false
  | _ => true

/-- the parameters of a `StateVector` call (/repo/include/scaluq/circuit/circuit.hpp:226-243) -/
def singleParams (d : DictArg) (kw : List (String × KwValue)) : Res (String → Option ℝ) := do
  let m ← match d with
    | .numbers d => pure fun k => d.lookup k
    | .sequences d => if d.isEmpty then pure fun _ => none else .error (.throw "StateVector requires dict[str, float] parameters.")
    | .absent => pure fun _ => none
  kwLoop d.isGiven KwValue.asNumber kw m

/-- the parameters of a `StateVectorBatched` call (/repo/include/scaluq/circuit/circuit.hpp:269-286) -/
def batchParams (d : DictArg) (kw : List (String × KwValue)) : Res (String → Option (List ℝ)) := do
  let m ← match d with
    | .sequences d => pure fun k => d.lookup k
    | .numbers d => if d.isEmpty then pure fun _ => none else .error (.throw "StateVectorBatched requires dict[str, Sequence[float]] parameters.")
    | .absent => pure fun _ => none
  kwLoop d.isGiven KwValue.asSequence kw m

/-- /repo/include/scaluq/circuit/circuit.hpp:219-260 `update_circuit_state` for a `StateVector` -/
def Circuit.Update (R : Rng) (L n : Nat) (C : Circuit) (ψ : U64 → ℂ) (a : RegArg) (d : DictArg) (kw : List (String × KwValue))
    (seed : Option Nat) (ψ' : U64 → ℂ) (a' : RegArg) (f : Option Fault) : Prop :=
  match singleParams d kw with
  | .error e => ψ' = ψ ∧ a' = a ∧ f = some e
  | .ok params =>
    match a with
    | .absent => a' = .absent ∧ C.RunsPlain L n (R.seeded (some (seed.getD R.entropy))) params ψ ψ' f
    | .single reg => ∃ c', C.RunsOn L n (R.seeded (some (seed.getD R.entropy))) params ψ reg c' f ∧ ψ' = c'.psi ∧ a' = .single c'.reg
    | .batched reg => ψ' = ψ ∧ a' = .batched reg ∧ f = some (.throw "ClassicalRegisterBatched cannot be used with StateVector.")

/-- /repo/include/scaluq/circuit/circuit.hpp:262-303 `update_circuit_state` for a `StateVectorBatched` -/
def Circuit.UpdateBatch (R : Rng) (L B n : Nat) (C : Circuit) (Ψ : U64 → ℂ) (a : RegArg) (d : DictArg) (kw : List (String × KwValue))
    (seed : Option Nat) (Ψ' : U64 → ℂ) (a' : RegArg) (f : Option Fault) : Prop :=
  match batchParams d kw with
  | .error e => Ψ' = Ψ ∧ a' = a ∧ f = some e
  | .ok params =>
    match a with
    | .absent => a' = .absent ∧ C.RunsBatchedPlain L B n (R.seeded (some (seed.getD R.entropy))) params Ψ Ψ' f
    | .single reg => Ψ' = Ψ ∧ a' = .single reg ∧ f = some (.throw "ClassicalRegister cannot be used with StateVectorBatched.")
    | .batched reg => ∃ c', C.RunsBatched L B n (R.seeded (some (seed.getD R.entropy))) params Ψ reg c' f ∧ Ψ' = c'.psi ∧
        a' = .batched c'.reg

end Verif.Model
