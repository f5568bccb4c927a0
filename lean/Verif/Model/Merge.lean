import Verif.Model.Expand
import Verif.Model.UGate

/-! # Model: `merge_gate`

/repo/src/gate/merge_gate.cpp for two gates that have a matrix; `Model/MergeAny.lean` has gates of every class. -/

namespace Verif.Model
open Verif Verif.Spec

/-- Eigen matrix product; the sizes must match -/
def DMat.mul {R : Type} [AddCommMonoid R] [Mul R] (a b : DMat R) : Res (DMat R) :=
  if a.cols = b.rows then .ok ⟨a.rows, b.cols, fun r s => ∑ k ∈ Finset.range a.cols, a.entry r k * b.entry k s⟩
  else .error (.ub "matrix product of different sizes")

/-- the control qubits the two gates have in common with equal values (/repo/src/gate/merge_gate.cpp:12-14) -/
def commonControls (o1 o2 : Operands) : U64 := o1.c &&& o2.c &&& ~~~(o1.v ^^^ o2.v)

/-- /repo/src/gate/merge_gate.cpp:8-38 `merge_gate_dense_matrix` -/
noncomputable def mergeDense (g1 g2 : UGate) : Res (UGate × ℝ) := do
  let o1 := g1.operands
  let o2 := g2.operands
  let cm := commonControls o1 o2
  let cvm := cm &&& o1.v
  let ops := maskToVector (((o1.t ||| o1.c) ||| (o2.t ||| o2.c)) &&& ~~~cm)
  let m1 ← g1.getMatrix
  let e1 ← getExpandedMatrix m1 g1.targetQubitList (o1.c &&& ~~~cm) (o1.v &&& ~~~cm) ops
  let m2 ← g2.getMatrix
  let e2 ← getExpandedMatrix m2 g2.targetQubitList (o2.c &&& ~~~cm) (o2.v &&& ~~~cm) ops
  let m ← e2.mul e1
  let g ← (GateDesc.dense ops m (maskToVector cm) (maskToVector2 cm cvm) false).build
  pure (g, 0)

/-- `get_pauli_id` (/repo/src/gate/merge_gate.cpp:91-97) -/
def pauliId : UGate → Option Nat
  | .one .X _ => some 1
  | .one .Y _ => some 2
  | .one .Z _ => some 3
  | _ => none

/-- /repo/src/gate/merge_gate.cpp:106-154: which Pauli and phase two different uncontrolled Paulis give -/
noncomputable def pauliPair : Nat → Nat → Option (Gate1 × ℝ)
  | 1, 2 => some (.Z, -(Real.pi / 2))
  | 1, 3 => some (.Y, Real.pi / 2)
  | 2, 3 => some (.X, -(Real.pi / 2))
  | 2, 1 => some (.Z, Real.pi / 2)
  | 3, 1 => some (.Y, -(Real.pi / 2))
  | 3, 2 => some (.X, Real.pi / 2)
  | _, _ => none

/-- the two Pauli operators of /repo/src/gate/merge_gate.cpp:159-168 -/
noncomputable def asPauli (g : UGate) : Res (Option PauliOp) :=
  match g with
  | .pauli p => .ok (some p.p)
  | _ => match pauliId g with
    | some id => do
      let t ← elemAt g.targetQubitList 0
      let p ← PauliOp.ofLists [t] [id] 1
      pure (some p)
    | none => .ok none

/-- what a special case answers: nothing (go on), or the result -/
abbrev Stage := Res (Option (UGate × ℝ))

/-- two Paulis on one qubit (/repo/src/gate/merge_gate.cpp:98-156) -/
noncomputable def stagePauliPair (g1 g2 : UGate) : Stage :=
  match pauliId g1, pauliId g2 with
  | some a, some b => do
    let t1 ← elemAt g1.targetQubitList 0
    let t2 ← elemAt g2.targetQubitList 0
    if t1 = t2 then
      if a = b then pure (some (.ident, 0))
      else match pauliPair a b with
        | some (k, phase) =>
          if g1.operands.c = 0 then do
            let g ← (GateDesc.one k t1 g1.controlQubitList g1.controlValueList).build
            pure (some (g, phase))
          else pure none
        | none => pure none
    else pure none
  | _, _ => .ok none

/-- product of two Pauli gates (/repo/src/gate/merge_gate.cpp:157-172) -/
noncomputable def stagePauliProduct (g1 g2 : UGate) : Stage := do
  let p1 ← asPauli g1
  let p2 ← asPauli g2
  match p1, p2 with
  | some p1, some p2 => do
    let g ← (GateDesc.pauli (p2.mul p1) g1.controlQubitList g1.controlValueList).build
    pure (some (g, 0))
  | _, _ => pure none

/-- `get_oct_phase` (/repo/src/gate/merge_gate.cpp:175-183) -/
def octPhase : Gate1 → Option Nat
  | .Z => some 4
  | .S => some 2
  | .Sdag => some 6
  | .T => some 1
  | .Tdag => some 7
  | _ => none

/-- `oct_phase_gate` (/repo/src/gate/merge_gate.cpp:184-199); `some none` is the identity gate -/
def octGate : Nat → Option (Option Gate1)
  | 0 => some none
  | 4 => some (some .Z)
  | 2 => some (some .S)
  | 6 => some (some .Sdag)
  | 1 => some (some .T)
  | 7 => some (some .Tdag)
  | _ => none

/-- `get_quad_rx` (/repo/src/gate/merge_gate.cpp:236-242) -/
def quadRx : Gate1 → Option Nat
  | .X => some 2
  | .SqrtX => some 1
  | .SqrtXdag => some 3
  | _ => none

/-- `quad_rx_gate` (/repo/src/gate/merge_gate.cpp:243-254) -/
def quadRxGate : Nat → Option (Option Gate1)
  | 0 => some none
  | 2 => some (some .X)
  | 1 => some (some .SqrtX)
  | 3 => some (some .SqrtXdag)
  | _ => none

/-- `get_quad_ry` (/repo/src/gate/merge_gate.cpp:286-292) -/
def quadRy : Gate1 → Option Nat
  | .Y => some 2
  | .SqrtY => some 1
  | .SqrtYdag => some 3
  | _ => none

/-- `quad_ry_gate` (/repo/src/gate/merge_gate.cpp:293-304) -/
def quadRyGate : Nat → Option (Option Gate1)
  | 0 => some none
  | 2 => some (some .Y)
  | 1 => some (some .SqrtY)
  | 3 => some (some .SqrtYdag)
  | _ => none

/-- /repo/src/gate/merge_gate.cpp:200-209, 255-264, 305-314 (the same text for the three tables): both gates are multiples of a fixed
rotation on the same qubit -/
noncomputable def stageFixed (f : Gate1 → Option Nat) (period : Nat) (tab : Nat → Option (Option Gate1)) (g1 g2 : UGate) : Stage :=
  match g1, g2 with
  | .one k1 _, .one k2 _ => match f k1, f k2 with
    | some a, some b => do
      let t1 ← elemAt g1.targetQubitList 0
      let t2 ← elemAt g2.targetQubitList 0
      if t1 = t2 then
        match tab ((a + b) % period) with
        | some none => pure (some (.ident, 0))
        | some (some k) => do
          let g ← (GateDesc.one k t1 g1.controlQubitList g1.controlValueList).build
          pure (some (g, 0))
        | none => pure none
      else pure none
    | _, _ => .ok none
  | _, _ => .ok none

/-- angle and global phase of a gate of the Z family (/repo/src/gate/merge_gate.cpp:210-224) -/
noncomputable def angleZ (k : Gate1) : Option (ℝ × ℝ) :=
  match octPhase k with
  | some a => some (a * Real.pi / 4, 0)
  | none => match k with
    | .RZ θ => some (θ, -θ / 2)
    | .U1 lam => some (lam, 0)
    | _ => none

/-- angle and global phase of a gate of the X family (/repo/src/gate/merge_gate.cpp:265-274) -/
noncomputable def angleX (k : Gate1) : Option (ℝ × ℝ) :=
  match quadRx k with
  | some a => some (a * Real.pi / 2, a * Real.pi / 2 / 2)
  | none => match k with
    | .RX θ => some (θ, 0)
    | _ => none

/-- angle and global phase of a gate of the Y family (/repo/src/gate/merge_gate.cpp:315-324) -/
noncomputable def angleY (k : Gate1) : Option (ℝ × ℝ) :=
  match quadRy k with
  | some a => some (a * Real.pi / 2, a * Real.pi / 2 / 2)
  | none => match k with
    | .RY θ => some (θ, 0)
    | _ => none

open Classical in
/-- `if (std::abs(global_phase) < eps) global_phase = 0.` with `eps = 1e-12` (/repo/src/gate/merge_gate.cpp:43, 226, 276, 326) -/
noncomputable def dropTiny (x : ℝ) : ℝ := if |x| < 1e-12 then 0 else x

open Classical in
/-- /repo/src/gate/merge_gate.cpp:210-233, 265-283, 315-333 (the same text for the three families): two rotations about one axis on the
same qubit -/
noncomputable def stageAngle (f : Gate1 → Option (ℝ × ℝ)) (mk : ℝ → Gate1) (g1 g2 : UGate) : Stage :=
  match g1, g2 with
  | .one k1 _, .one k2 _ => match f k1, f k2 with
    | some a, some b => do
      let t1 ← elemAt g1.targetQubitList 0
      let t2 ← elemAt g2.targetQubitList 0
      if t1 = t2 then
        let gp := dropTiny (a.2 + b.2)
        if g1.operands.c = 0 ∨ gp = 0 then do
          let g ← (GateDesc.one (mk (a.1 + b.1)) t1 g1.controlQubitList g1.controlValueList).build
          pure (some (g, gp))
        else pure none
      else pure none
    | _, _ => .ok none
  | _, _ => .ok none

/-- two global phases with the same controls (/repo/src/gate/merge_gate.cpp:80-88) -/
noncomputable def stagePhase (g1 g2 : UGate) : Stage :=
  match g1, g2 with
  | .globalPhase a _, .globalPhase b _ => do
    let g ← (GateDesc.globalPhase (a + b) g1.controlQubitList g1.controlValueList).build
    pure (some (g, 0))
  | _, _ => .ok none

/-- two swaps of the same qubits (/repo/src/gate/merge_gate.cpp:335-339) -/
def stageSwap (g1 g2 : UGate) : Stage :=
  match g1, g2 with
  | .swap o1, .swap o2 => if o1.t = o2.t then .ok (some (.ident, 0)) else .ok none
  | _, _ => .ok none

/-- the first special case that answers -/
noncomputable def runStages (g1 g2 : UGate) : List (UGate → UGate → Stage) → Stage
  | [] => .ok none
  | s :: ss => do
    match ← s g1 g2 with
    | some r => pure (some r)
    | none => runStages g1 g2 ss

/-- the special cases of /repo/src/gate/merge_gate.cpp:80-339 in order -/
noncomputable def mergeStages : List (UGate → UGate → Stage) :=
  [stagePhase, stagePauliPair, stagePauliProduct, stageFixed octPhase 8 octGate, stageAngle angleZ .U1,
    stageFixed quadRx 4 quadRxGate, stageAngle angleX .RX, stageFixed quadRy 4 quadRyGate, stageAngle angleY .RY, stageSwap]

/-- /repo/src/gate/merge_gate.cpp:40-343 `merge_gate` -/
noncomputable def mergeGate (g1 g2 : UGate) : Res (UGate × ℝ) :=
  match g1, g2 with
  | .perm _, _ => .error (.throw "merge_gate: PermutationGate is not supported.")
  | _, .perm _ => .error (.throw "merge_gate: PermutationGate is not supported.")
  | .ident, g2 => .ok (g2, 0)
  | g1, .ident => .ok (g1, 0)
  | g1, g2 => do
    match (match g1 with | .globalPhase phase o => if o.c = 0 then some phase else none | _ => none : Option ℝ) with
    | some phase => pure (g2, phase)
    | none =>
      match (match g2 with | .globalPhase phase o => if o.c = 0 then some phase else none | _ => none : Option ℝ) with
      | some phase => pure (g1, phase)
      | none =>
        if ¬ (g1.operands.c = g2.operands.c ∧ g1.operands.v = g2.operands.v) then mergeDense g1 g2
        else match ← runStages g1 g2 mergeStages with
          | some r => pure r
          | none => mergeDense g1 g2

end Verif.Model
