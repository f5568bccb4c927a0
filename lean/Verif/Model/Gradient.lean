import Verif.Model.Circuit
import Verif.Model.StateVec
import Mathlib.Analysis.SpecialFunctions.Trigonometric.Basic

/-!
# Gradients of expectation values

Model of `compute_expectation_gradient_backprop` and `compute_expectation_gradient` (/repo/src/circuit/circuit.cpp:654-788).  The result
`std::unordered_map<std::string, double>` is a partial function on the keys.  `eps` is `internal::get_epsilon<Prec>()`
(/repo/include/scaluq/util/utility.hpp:230-240).  The index of the loop is `int64_t`; circuits have fewer than 2^63 gates.
-/

namespace Verif.Model
open Verif Verif.Spec

/-- the variables `state`, `bistate`, `gradient` -/
structure GradState where
  psi : U64 → ℂ
  bi : U64 → ℂ
  grad : String → Option ℝ

/-- `std::numeric_limits<double>::epsilon()` -/
noncomputable def dblEpsilon : ℝ := 1 / 2 ^ 52

/-- `gradient[key] += x`; a missing key starts from zero -/
noncomputable def gradAdd (g : String → Option ℝ) (key : String) (x : ℝ) : String → Option ℝ := fun k =>
  if k = key then some ((g key).getD 0 + x) else g k

/-- the last test of `scale` (/repo/src/circuit/circuit.cpp:698-703) -/
noncomputable def checkScale (scale : ℝ) : Res ℝ :=
  open Classical in
  if |scale| < dblEpsilon then .error (.throw "param_coef * pauli_coef must be nonzero.") else .ok scale

/-- `scale` of a parametric gate (/repo/src/circuit/circuit.cpp:676-703); a probabilistic gate has the default `_pcoef` of 1
(/repo/src/gate/param_gate_probabilistic.cpp:65-68, /repo/include/scaluq/gate/param_gate.hpp:87-90) -/
noncomputable def PGate.scale (eps : ℝ) : PGate → Res ℝ
  | .rot (.axis _ _ pcoef) => checkScale (pcoef * 1)
  | .rot (.pauli g pcoef) =>
    open Classical in
    if |g.p.coef.im| ≥ eps then .error (.throw "pauli coefficient must be real.")
    else if |g.p.coef.re| < dblEpsilon then .error (.throw "pauli coefficient must be nonzero.")
    else checkScale (pcoef * g.p.coef.re)
  | .prob _ => checkScale (1 * 1)

/-- `pgate->update_quantum_state(state, param)`: every call has its own random engine -/
def PGate.UpdatesState (L n : Nat) (g : PGate) (param : ℝ) (ψ ψ' : U64 → ℂ) (f : Option Fault) : Prop :=
  ∃ (rnd : Nat → ℝ) (c' : Context), g.RunsOn L n rnd param ⟨ψ, [], 0⟩ c' f ∧ ψ' = c'.psi

/-- `gate->update_quantum_state(state)` -/
def Gate.UpdatesState (L n : Nat) (g : Gate) (ψ ψ' : U64 → ℂ) (f : Option Fault) : Prop :=
  ∃ (rnd : Nat → ℝ) (c' : Context), g.RunsOn L n rnd ⟨ψ, [], 0⟩ c' f ∧ ψ' = c'.psi

/-- the derivative part of one iteration (/repo/src/circuit/circuit.cpp:672-709) -/
def Item.Contributes (L n : Nat) (eps : ℝ) (g : Item) (s s' : GradState) (f : Option Fault) : Prop :=
  match g with
  | .inl _ => s' = s ∧ f = none
  | .inr (p, key) =>
    match p.scale eps with
    | .error e => s' = s ∧ f = some e
    | .ok scale => ∃ (A : U64 → ℂ) (f1 : Option Fault), p.UpdatesState L n (-Real.pi / scale) s.psi A f1 ∧
      match f1 with
      | some e => s' = s ∧ f = some e
      | none =>
        match innerProduct n n s.bi A with
        | .error e => s' = s ∧ f = some e
        | .ok ip => s' = { s with grad := gradAdd s.grad key (-scale * ip.re) } ∧ f = none

/-- `inv->update_quantum_state(bistate); inv->update_quantum_state(state);` -/
def UndoesBoth (upd : (U64 → ℂ) → (U64 → ℂ) → Option Fault → Prop) (s s' : GradState) (f : Option Fault) : Prop :=
  ∃ (b : U64 → ℂ) (f1 : Option Fault), upd s.bi b f1 ∧
    match f1 with
    | some e => s' = { s with bi := b } ∧ f = some e
    | none => ∃ ψ : U64 → ℂ, upd s.psi ψ f ∧ s' = { s with bi := b, psi := ψ }

/-- the second part of one iteration (/repo/src/circuit/circuit.cpp:711-731) -/
def Item.Undone (L n : Nat) (params : String → Option ℝ) (g : Item) (s s' : GradState) (f : Option Fault) : Prop :=
  match g with
  | .inl g =>
    match g.inverse with
    | .error e => s' = s ∧ f = some e
    | .ok inv => UndoesBoth (inv.UpdatesState L n) s s' f
  | .inr (p, key) =>
    match p.inverse with
    | .error e => s' = s ∧ f = some e
    | .ok inv =>
      match params key with
      | none => s' = s ∧ f = some (.throw ("parameter named " ++ key ++ " is not given."))
      | some θ => UndoesBoth (inv.UpdatesState L n θ) s s' f

/-- one iteration (/repo/src/circuit/circuit.cpp:669-732) -/
def Item.GradStep (L n : Nat) (eps : ℝ) (params : String → Option ℝ) (g : Item) (s s' : GradState) (f : Option Fault) : Prop :=
  ∃ (s1 : GradState) (f1 : Option Fault), Item.Contributes L n eps g s s1 f1 ∧
    match f1 with
    | some e => s' = s1 ∧ f = some e
    | none => Item.Undone L n params g s1 s' f

/-- one iteration with the checked access `get_gate_at(i)` (/repo/include/scaluq/circuit/circuit.hpp:38-43) -/
def Circuit.GradAt (L n : Nat) (eps : ℝ) (params : String → Option ℝ) (C : Circuit) (i : Nat) (s s' : GradState)
    (f : Option Fault) : Prop :=
  match C.gates[i]? with
  | none => s' = s ∧ f = some (.throw "Circuit::get_gate_at(std::uint64_t): index out of bounds")
  | some g => Item.GradStep L n eps params g s s' f

/-- /repo/src/circuit/circuit.cpp:659-735 `compute_expectation_gradient_backprop(state, bistate, parameters)`; `s'` holds the final
contents of `state` and `bistate` and the map -/
def Circuit.Backprops (L n : Nat) (eps : ℝ) (params : String → Option ℝ) (C : Circuit) (ψ b : U64 → ℂ) (s' : GradState)
    (f : Option Fault) : Prop :=
  SeqRun (C.GradAt L n eps params) (List.range C.gates.length).reverse
    ⟨ψ, b, fun k => if k ∈ C.keySet then some 0 else none⟩ s' f

/-- /repo/src/circuit/circuit.cpp:756-772 `compute_expectation_gradient(obs, parameters)`: `r` is the map or the fault.  `junk` is the
uninitialised memory of the new state, `rnd` the numbers drawn by `update_quantum_state`. -/
def Circuit.Gradient (L : Nat) (eps : ℝ) (rnd : Nat → ℝ) (params : String → Option ℝ) (C : Circuit) (obs : Op) (junk : U64 → ℂ)
    (r : Res (String → Option ℝ)) : Prop :=
  if obs.hermitian = false then r = .error (.throw "Circuit::compute_expectation_gradient: observable must be Hermitian.")
  else
    let n := C.requiredQubits
    match shl1 n with
    | .error e => r = .error e
    | .ok _ => ∃ ψ0 ψ : U64 → ℂ, ∃ f1 : Option Fault,
      DRuns (2 ^ n) (.par (2 ^ n) (fill (2 ^ n) fun i => if i = 0 then (1 : ℂ) else 0)) junk ψ0 ∧
      C.RunsPlain L n rnd params ψ0 ψ f1 ∧
      match f1 with
      | some e => r = .error e
      | none => ∃ b : U64 → ℂ, obs.Applies (2 ^ n) ψ b ∧ ∃ (s' : GradState) (f : Option Fault),
        C.Backprops L n eps params ψ b s' f ∧
        match f with
        | some e => r = .error e
        | none => r = .ok s'.grad

end Verif.Model
