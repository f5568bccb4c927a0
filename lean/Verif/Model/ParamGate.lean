import Verif.Model.RandomGate
import Verif.Core.Slots

/-!
# Parametric gates

Model of /repo/src/gate/param_gate*.cpp and /repo/include/scaluq/gate/param_gate*.hpp.
-/

namespace Verif.Model
open Verif Verif.Spec

/-- the classes `ParamRXGateImpl`, `ParamRYGateImpl`, `ParamRZGateImpl` -/
inductive RotAxis where
  | X
  | Y
  | Z
deriving DecidableEq

/-- the fixed rotation of the same axis -/
def RotAxis.gate1 : RotAxis → ℝ → Gate1
  | .X, a => .RX a
  | .Y, a => .RY a
  | .Z, a => .RZ a

/-- a rotation object: masks (and Pauli operator) and `_pcoef`
(/repo/include/scaluq/gate/param_gate.hpp:76-80, /repo/include/scaluq/gate/param_gate_pauli.hpp:12) -/
inductive PRot where
  | axis (a : RotAxis) (o : Operands) (pcoef : ℝ)
  | pauli (g : PauliGate) (pcoef : ℝ)

/-- the three masks -/
def PRot.operands : PRot → Operands
  | .axis _ o _ => o
  | .pauli g _ => g.o

/-- `param_coef()` -/
def PRot.pcoef : PRot → ℝ
  | .axis _ _ p => p
  | .pauli _ p => p

/-- factories `ParamRX`, `ParamRY`, `ParamRZ` (/repo/include/scaluq/gate/param_gate_factory.hpp:19-54); the base constructor
(/repo/src/gate/param_gate.cpp:83-97) does the same overlap check as `GateBase` -/
noncomputable def mkAxis (a : RotAxis) (target : Nat) (pcoef : ℝ) (controls values : List Nat) : Res PRot := do
  let o ← mkOperands [target] controls values
  pure (.axis a o pcoef)

/-- factory `ParamPauliRotation` (/repo/include/scaluq/gate/param_gate_factory.hpp:55-66) -/
noncomputable def mkParamPauli (p : PauliOp) (pcoef : ℝ) (controls values : List Nat) : Res PRot := do
  let g ← mkPauli p controls values
  pure (.pauli g pcoef)

/-- `update_quantum_state(context, param)` for a single state: RX /repo/src/gate/param_gate_standard.cpp:22-31, RY and RZ the
same with `ry_gate`, `rz_gate`; Pauli rotation /repo/src/gate/param_gate_pauli.cpp:29-41.  The bounds check is
/repo/src/gate/param_gate.cpp:7-58. -/
noncomputable def PRot.update (L n : Nat) (param : ℝ) : PRot → Res (Device ℂ)
  | .axis a o pcoef => do
    checkWithinBounds o n
    pure (gate1Kernel L n o (1 * 2 ^ n) (a.gate1 (pcoef * param)))
  | .pauli g pcoef => do
    checkWithinBounds g.o n
    pure (applyPauliRotation g.o.c g.o.v g.p.x g.p.z g.p.coef (pcoef * param) (1 * 2 ^ n))

/-- the nested `TeamThreadRange` of one team of the batched kernels on `2 ^ n` amplitudes: rx
/repo/src/gate/update_ops_standard.cpp:97-118, ry 146-166, rz 196-213; Pauli rotation
/repo/include/scaluq/operator/apply_pauli.hpp:247-291 -/
noncomputable def PRot.launch (n : Nat) (param : ℝ) : PRot → Launch ℂ
  | .axis .X o pcoef =>
    let angle := param * pcoef
    let cosval := Real.cos (angle / 2)
    let sinval := Real.sin (angle / 2)
    ⟨_, dense1Scalar o.t o.c o.v ⟨(cosval : ℂ), ⟨0, -sinval⟩, ⟨0, -sinval⟩, (cosval : ℂ)⟩ (2 ^ n)⟩
  | .axis .Y o pcoef =>
    let angle := param * pcoef
    let cosval := Real.cos (angle / 2)
    let sinval := Real.sin (angle / 2)
    ⟨_, dense1Scalar o.t o.c o.v ⟨(cosval : ℂ), ((-sinval : ℝ) : ℂ), (sinval : ℂ), (cosval : ℂ)⟩ (2 ^ n)⟩
  | .axis .Z o pcoef =>
    let angle := param * pcoef
    let cosval := Real.cos (angle / 2)
    let sinval := Real.sin (angle / 2)
    ⟨_, diagGate o.t o.c o.v (⟨cosval, -sinval⟩ : ℂ) ⟨cosval, sinval⟩ (2 ^ n)⟩
  | .pauli g pcoef =>
    let angle : ℝ := pcoef * param
    let trueAngle : ℂ := angle * g.p.coef
    let cosval := Complex.cos (-trueAngle / 2)
    let sinval := Complex.sin (-trueAngle / 2)
    if g.p.x = 0 then ⟨_, pauliRotDiag g.o.c g.o.v g.p.z (cosval - imagUnit * sinval) (cosval + imagUnit * sinval) (2 ^ n)⟩
    else ⟨_, pauliRotFlip imagUnit phaseM90 g.o.c g.o.v g.p.x g.p.z cosval sinval (2 ^ n)⟩

/-- `get_inverse`: /repo/include/scaluq/gate/param_gate_standard.hpp:17-20 (RX; RY and RZ alike),
/repo/include/scaluq/gate/param_gate_pauli.hpp:33-36 -/
def PRot.inverse : PRot → PRot
  | .axis a o pcoef => .axis a o (-pcoef)
  | .pauli g pcoef => .pauli g (-pcoef)

/-- `get_matrix(param)`: /repo/src/gate/param_gate_standard.cpp:7-15 (RX), RY and RZ alike (the same entries as the fixed gates
of /repo/src/gate/gate_standard.cpp); /repo/src/gate/param_gate_pauli.cpp:6-16 -/
noncomputable def PRot.getMatrix (param : ℝ) : PRot → Res (DMat ℂ)
  | .axis a _ pcoef => .ok (gate1GetMatrix (a.gate1 (pcoef * param))).toDMat
  | .pauli g pcoef => pauliRotGetMatrix g (pcoef * param)

/-- an entry of the list of a parametric probabilistic gate: `std::variant<Gate, ParamGate>` after flattening -/
inductive PLeaf where
  | fixed (g : UGate)
  | rot (r : PRot)

/-- `ParamGate<Prec>` -/
inductive PGate where
  | rot (r : PRot)
  | prob (t : ProbTable PLeaf)

/-- an argument `std::variant<Gate, ParamGate>` of `ParamProbabilistic`, as seen by
/repo/src/gate/param_gate_probabilistic.cpp:21-63 -/
def eitherComponent : Gate ⊕ PGate → Component PLeaf
  | .inl (.det g) => .leaf (.fixed g)
  | .inl (.prob t) => .nested ⟨t.dist, t.cum, t.gates.map .fixed⟩
  | .inl (.meas _) => .measurement
  | .inr (.rot r) => .leaf (.rot r)
  | .inr (.prob t) => .nested t

/-- factory `ParamProbabilistic` (/repo/include/scaluq/gate/param_gate_factory.hpp:67-73) -/
noncomputable def mkParamProbabilistic (dist : List (Option ℝ)) (gates : List (Gate ⊕ PGate)) : Res PGate := do
  let t ← mkProbTable dist (gates.map eitherComponent)
  pure (.prob t)

/-- `get_inverse` of one entry (/repo/src/gate/param_gate_probabilistic.cpp:107-110) -/
noncomputable def PLeaf.inverse : PLeaf → Res PLeaf
  | .fixed g => do
    let g' ← g.inverse
    pure (.fixed g')
  | .rot r => pure (.rot r.inverse)

/-- `get_inverse`; probabilistic: /repo/src/gate/param_gate_probabilistic.cpp:103-112 -/
noncomputable def PGate.inverse : PGate → Res PGate
  | .rot r => pure (.rot r.inverse)
  | .prob t => do
    let gs ← t.gates.mapM PLeaf.inverse
    let t' ← mkProbTable (t.dist.map some) (gs.map .leaf)
    pure (.prob t')

/-- `operand_qubit_mask()` -/
def PLeaf.operandMask : PLeaf → U64
  | .fixed g => g.operands.t ||| g.operands.c
  | .rot r => r.operands.t ||| r.operands.c

/-- `operand_qubit_mask()`; probabilistic: /repo/include/scaluq/gate/param_gate_probabilistic.hpp:60-65 -/
def PGate.operandMask : PGate → U64
  | .rot r => r.operands.t ||| r.operands.c
  | .prob t => t.gates.foldl (fun m g => m ||| g.operandMask) 0

/-- a rotation applied in a context -/
def PRot.RunsOn (L n : Nat) (param : ℝ) (r : PRot) (c c' : Context) (f : Option Fault) : Prop :=
  match r.update L n param with
  | .error e => c' = c ∧ f = some e
  | .ok dev => f = none ∧ c'.reg = c.reg ∧ c'.pos = c.pos ∧ DRuns (1 * 2 ^ n) dev c.psi c'.psi

/-- `update_quantum_state` of an entry (/repo/src/gate/param_gate_probabilistic.cpp:133-138) -/
def PLeaf.RunsOn (L n : Nat) (param : ℝ) (g : PLeaf) (c c' : Context) (f : Option Fault) : Prop :=
  match g with
  | .fixed g => g.RunsOn L n c c' f
  | .rot r => r.RunsOn L n param c c' f

/-- `update_quantum_state(context, param)`; probabilistic: /repo/src/gate/param_gate_probabilistic.cpp:129-140 -/
def PGate.RunsOn (L n : Nat) (rnd : Nat → ℝ) (param : ℝ) (g : PGate) (c c' : Context) (f : Option Fault) : Prop :=
  match g with
  | .rot r => r.RunsOn L n param c c' f
  | .prob t =>
    match t.select (rnd c.pos) with
    | .error e => c' = { c with pos := c.pos + 1 } ∧ f = some e
    | .ok u => u.RunsOn L n param { c with pos := c.pos + 1 } c' f

/-- `PLeaf.RunsOn` for a context whose state is a view (`UGate.RunsOnView`); the kernels of rotations work in place -/
def PLeaf.RunsOnView (L n : Nat) (param : ℝ) (g : PLeaf) (c c' : Context) (f : Option Fault) : Prop :=
  match g with
  | .fixed g => g.RunsOnView L n c c' f
  | .rot r => r.RunsOn L n param c c' f

/-- `PGate.RunsOn` for a context whose state is a view -/
def PGate.RunsOnView (L n : Nat) (rnd : Nat → ℝ) (param : ℝ) (g : PGate) (c c' : Context) (f : Option Fault) : Prop :=
  match g with
  | .rot r => r.RunsOn L n param c c' f
  | .prob t =>
    match t.select (rnd c.pos) with
    | .error e => c' = { c with pos := c.pos + 1 } ∧ f = some e
    | .ok u => u.RunsOnView L n param { c with pos := c.pos + 1 } c' f

/-- a rotation applied to a batch: bounds check, then one team per slot that reads `params(batch_id)` and works on its slot
(RX /repo/src/gate/param_gate_standard.cpp:32-50 and the kernels cited at `PRot.launch`; Pauli rotation
/repo/src/gate/param_gate_pauli.cpp:42-63) -/
def PRot.RunsBatched (B n : Nat) (params : List ℝ) (r : PRot) (c c' : BContext) (f : Option Fault) : Prop :=
  match checkWithinBounds r.operands n with
  | .error e => c' = c ∧ f = some e
  | .ok _ =>
    if h : B ≤ params.length then
      f = none ∧ c'.reg = c.reg ∧ c'.pos = c.pos ∧ ∃ m',
        Runs (InBatch B (2 ^ n)) (slotPool fun b : Fin B => r.launch n (params[b.val]'(by omega)))
          (fun p => slotOf n p.1 c.psi p.2) (fun p => m' p.1 p.2) ∧
        c'.psi = ofSlots B n m' c.psi
    else c' = c ∧ f = some (.ub "params(batch_id) out of range")

/-- one iteration of /repo/src/gate/param_gate_probabilistic.cpp:145-150 -/
def PGate.SlotRun (L n : Nat) (rnd : Nat → ℝ) (params : List ℝ) (g : PGate) (b : Nat) (c c' : BContext) (f : Option Fault) : Prop :=
  match params[b]? with
  | none => c' = c ∧ f = some (.ub "params[i] out of range")
  | some p => SlotStep n (g.RunsOnView L n rnd p) b c c' f

/-- `update_quantum_state(batched context, params)`; probabilistic: /repo/src/gate/param_gate_probabilistic.cpp:141-151 -/
def PGate.RunsBatched (L B n : Nat) (rnd : Nat → ℝ) (params : List ℝ) (g : PGate) (c c' : BContext) (f : Option Fault) : Prop :=
  match g with
  | .rot r => r.RunsBatched B n params c c' f
  | .prob t => SeqRun (PGate.SlotRun L n rnd params (.prob t)) (List.range B) c c' f

end Verif.Model
