import Verif.Model.Merge
import Verif.Model.RandomGate

/-! # Model: `merge_gate` on gates of every class

/repo/src/gate/merge_gate.cpp:40-343; `Model/Merge.lean` has the part for two gates that have a matrix.  A `MeasurementGate` has empty
control masks (`MeasGate.o.c = 0`, /repo/include/scaluq/gate/gate_measurement.hpp:15-16) and none of the gate types asked for in lines
80-339, so two gates of which one is a measurement reach `merge_gate_dense_matrix` unless lines 59-72 answer. -/

namespace Verif.Model
open Verif Verif.Spec

/-- `MeasurementGateImpl::get_matrix` (/repo/src/gate/gate_measurement.cpp:7-11) -/
def MeasGate.getMatrix (_ : MeasGate) : Res (DMat ℂ) :=
  .error (.throw "MeasurementGate::get_matrix(): measurement gate does not have a matrix representation")

/-- `merge_gate_dense_matrix` (/repo/src/gate/merge_gate.cpp:8-38) with a measurement as the first gate: `gate1->get_matrix()` is the
first thing computed (line 21) that can fail -/
def mergeDenseMeasFirst (m : MeasGate) : Res (Gate × ℝ) := do
  let _ ← m.getMatrix
  .error (.ub "not reached")

/-- `merge_gate_dense_matrix` (/repo/src/gate/merge_gate.cpp:8-38) with a measurement as the second gate: the first gate is expanded
(lines 21-25), then `gate2->get_matrix()` is called (line 26) -/
noncomputable def mergeDenseMeasSecond (g1 : UGate) (m : MeasGate) : Res (Gate × ℝ) := do
  let o1 := g1.operands
  let cm := commonControls o1 m.o
  let ops := maskToVector (((o1.t ||| o1.c) ||| (m.o.t ||| m.o.c)) &&& ~~~cm)
  let m1 ← g1.getMatrix
  let _ ← getExpandedMatrix m1 g1.targetQubitList (o1.c &&& ~~~cm) (o1.v &&& ~~~cm) ops
  let _ ← m.getMatrix
  .error (.ub "not reached")

/-- /repo/src/gate/merge_gate.cpp:40-343 `merge_gate` -/
noncomputable def mergeAny (g1 g2 : Gate) : Res (Gate × ℝ) :=
  match g1, g2 with
  | .prob _, _ => .error (.throw "merge_gate: ProbabilisticGate is not supported.")
  | _, .prob _ => .error (.throw "merge_gate: ProbabilisticGate is not supported.")
  | .det g1, .det g2 => do
    let (g, φ) ← mergeGate g1 g2
    pure (.det g, φ)
  | .meas m, .meas _ => mergeDenseMeasFirst m
  | .det g, .meas m =>
    match g with
    | .perm _ => .error (.throw "merge_gate: PermutationGate is not supported.")
    | .ident => .ok (.meas m, 0)
    | .globalPhase phase o => if o.c = 0 then .ok (.meas m, phase) else mergeDenseMeasSecond g m
    | g => mergeDenseMeasSecond g m
  | .meas m, .det g =>
    match g with
    | .perm _ => .error (.throw "merge_gate: PermutationGate is not supported.")
    | .ident => .ok (.meas m, 0)
    | .globalPhase phase o => if o.c = 0 then .ok (.meas m, phase) else mergeDenseMeasFirst m
    | _ => mergeDenseMeasFirst m

end Verif.Model
