import Verif.Model.Qasm
import Verif.Model.PauliText

/-!
# JSON form of gates and circuits

Model of the `get_as_json` members and `from_json` functions of gates, parametric gates, Pauli operators and circuits.  The values are those of the
library nlohmann::json; its conversion between values and text is not modelled (it writes a NaN or an infinity as `null`, so that every number in
a text is finite).  A value of type `std::uint64_t` is a natural number as in the rest of the model, floating point numbers are exact.  Function arguments, which C++ may
evaluate in any order, are evaluated from left to right.
-/

namespace Verif.Model
open Verif Verif.Spec

/-- `nlohmann::json`: `uint` is `number_unsigned`, `int` is `number_integer`; the entries of an object have different keys -/
inductive Json where
  | null
  | bool (b : Bool)
  | uint (n : Nat)
  | int (z : Int)
  | real (x : ℝ)
  | str (s : Text)
  | arr (l : List Json)
  | obj (fields : List (Text × Json))

/-- `j.at(key)`: a missing key throws `out_of_range`, a value that is no object throws `type_error` -/
def Json.at (j : Json) (key : Text) : Res Json :=
  match j with
  | .obj fields =>
    match fields.lookup key with
    | some v => .ok v
    | none => .error (.throw "out_of_range: key not found")
  | _ => .error (.throw "type_error: cannot use at()")

/-- `j[key]` for a constant `j`: a missing key is undefined behaviour -/
def Json.index (j : Json) (key : Text) : Res Json :=
  match j with
  | .obj fields =>
    match fields.lookup key with
    | some v => .ok v
    | none => .error (.ub "operator[] const: key not found")
  | _ => .error (.throw "type_error: cannot use operator[]")

/-- `j.contains(key)` -/
def Json.contains (j : Json) (key : Text) : Bool :=
  match j with
  | .obj fields => (fields.lookup key).isSome
  | _ => false

/-- `get<std::uint64_t>()`; the conversion of a floating point number outside the range of the type is undefined behaviour -/
noncomputable def Json.asUInt : Json → Res Nat
  | .uint n => .ok n
  | .int z => .ok (z % 2 ^ 64).toNat
  | .real x => open Classical in if -1 < x ∧ x < 2 ^ 64 then .ok ⌊x⌋₊ else .error (.ub "conversion of a floating point number out of range")
  | _ => .error (.throw "type_error: type must be number")

/-- `get<double>()` -/
noncomputable def Json.asReal : Json → Res ℝ
  | .uint n => .ok n
  | .int z => .ok z
  | .real x => .ok x
  | _ => .error (.throw "type_error: type must be number")

/-- `get<bool>()` -/
def Json.asBool : Json → Res Bool
  | .bool b => .ok b
  | _ => .error (.throw "type_error: type must be boolean")

/-- `get<std::string>()` -/
def Json.asText : Json → Res Text
  | .str s => .ok s
  | _ => .error (.throw "type_error: type must be string")

/-- the elements `get<std::vector<T>>()` converts -/
def Json.asArray : Json → Res (List Json)
  | .arr l => .ok l
  | _ => .error (.throw "type_error: type must be array")

/-- the values visited by `for (const Json& x : j)`; an object is a `std::map` ordered by the keys -/
def Json.items : Json → List Json
  | .null => []
  | .arr l => l
  | .obj fields => (fields.mergeSort fun a b => decide (a.1 ≤ b.1)).map (·.2)
  | j => [j]

/-- `j.at(key).get<std::vector<std::uint64_t>>()` -/
noncomputable def Json.uints (j : Json) (key : Text) : Res (List Nat) := do
  let a ← j.at key
  let l ← a.asArray
  l.mapM Json.asUInt

/-- `j.at(key).get<double>()` -/
noncomputable def Json.number (j : Json) (key : Text) : Res ℝ := do
  let a ← j.at key
  a.asReal

/-- `j.at("distribution").get<std::vector<double>>()` -/
noncomputable def Json.distribution (j : Json) : Res (List ℝ) := do
  let a ← j.at (t! "distribution")
  let l ← a.asArray
  l.mapM Json.asReal

/-- a `std::vector<std::uint64_t>` as JSON -/
def Json.ofList (l : List Nat) : Json := .arr (l.map .uint)

/-- a `std::vector<double>` as JSON -/
def Json.ofReals (l : List ℝ) : Json := .arr (l.map .real)

/-! ## numbers, matrices, Pauli operators -/

/-- /repo/include/scaluq/types.hpp:83-86 -/
def complexToJson (z : ℂ) : Json := .obj [(t! "real", .real z.re), (t! "imag", .real z.im)]

/-- /repo/include/scaluq/types.hpp:87-90 -/
noncomputable def complexOfJson (j : Json) : Res ℂ := do
  let a ← j.index (t! "real")
  let re ← a.asReal
  let b ← j.index (t! "imag")
  let im ← b.asReal
  pure ⟨re, im⟩

/-- /repo/include/scaluq/types.hpp:109-118 -/
def matrixToJson (m : DMat ℂ) : Json :=
  .arr ((List.range m.rows).map fun r => .arr ((List.range m.cols).map fun c => complexToJson (m.entry r c)))

/-- /repo/include/scaluq/types.hpp:137-151 -/
def sparseToJson (m : SMat ℂ) : Json :=
  .obj [(t! "rows", .uint m.stored.length), (t! "cols", .uint m.cols),
    (t! "triplets", .arr (m.stored.zipIdx.flatMap fun row => row.1.map fun e =>
      .obj [(t! "row", .uint row.2), (t! "col", .uint e.1), (t! "val", complexToJson e.2)]))]

/-- /repo/include/scaluq/operator/pauli_operator.hpp:117-119 -/
def PauliOp.toJson (p : PauliOp) : Res Json := do
  let s ← p.getString
  pure (.obj [(t! "pauli_string", .str s), (t! "coef", complexToJson p.coef)])

/-- /repo/include/scaluq/operator/pauli_operator.hpp:120-123 -/
noncomputable def PauliOp.ofJson (j : Json) : Res PauliOp := do
  let a ← j.at (t! "pauli_string")
  let s ← a.asText
  let b ← j.at (t! "coef")
  let z ← complexOfJson b
  PauliOp.ofString s z

/-! ## gates -/

/-- the name written by `get_as_json` of a one-qubit gate (/repo/include/scaluq/gate/gate_standard.hpp:153, 196, ..., 1054) -/
def gate1Name : Gate1 → Text
  | .X => (t! "X")
  | .Y => (t! "Y")
  | .Z => (t! "Z")
  | .H => (t! "H")
  | .S => (t! "S")
  | .Sdag => (t! "Sdag")
  | .T => (t! "T")
  | .Tdag => (t! "Tdag")
  | .SqrtX => (t! "SqrtX")
  | .SqrtXdag => (t! "SqrtXdag")
  | .SqrtY => (t! "SqrtY")
  | .SqrtYdag => (t! "SqrtYdag")
  | .P0 => (t! "P0")
  | .P1 => (t! "P1")
  | .RX _ => (t! "RX")
  | .RY _ => (t! "RY")
  | .RZ _ => (t! "RZ")
  | .U1 _ => (t! "U1")
  | .U2 _ _ => (t! "U2")
  | .U3 _ _ _ => (t! "U3")

/-- the angles written by `get_as_json` of a one-qubit gate (/repo/include/scaluq/gate/gate_standard.hpp:783-790 (RX; RY and RZ alike), 927-932,
988-994, 1054-1061) -/
def gate1Angles : Gate1 → List (Text × Json)
  | .RX a => [(t! "angle", .real a)]
  | .RY a => [(t! "angle", .real a)]
  | .RZ a => [(t! "angle", .real a)]
  | .U1 lam => [(t! "lambda", .real lam)]
  | .U2 phi lam => [(t! "lambda", .real lam), (t! "phi", .real phi)]
  | .U3 θ phi lam => [(t! "lambda", .real lam), (t! "phi", .real phi), (t! "theta", .real θ)]
  | _ => []

/-- `{"target", target_qubit_list()}` -/
def targetField (o : Operands) : List (Text × Json) := [(t! "target", Json.ofList (maskToVector o.t))]

/-- `{"control", control_qubit_list()}, {"control_value", control_value_list()}` -/
def controlFields (o : Operands) : List (Text × Json) :=
  [(t! "control", Json.ofList (maskToVector o.c)), (t! "control_value", Json.ofList (maskToVector2 o.c o.v))]

/-- `{"type", name}` -/
def typeField (name : Text) : List (Text × Json) := [(t! "type", .str name)]

/-- `get_as_json` of the gates without randomness: /repo/include/scaluq/gate/gate_standard.hpp:45 (I), 93-98 (GlobalPhase), 152-157 and the like
(one-qubit gates), 1099-1104 (Swap), 1163-1170 (Ecr), 1221-1224 (Permutation), /repo/include/scaluq/gate/gate_matrix.hpp:52-58 and 98-104,
/repo/include/scaluq/gate/gate_pauli.hpp:50-55 and 102-108.  The Eigen call `sparseView()` keeps the non-zero entries. -/
noncomputable def UGate.toJson : UGate → Res Json
  | .ident => .ok (.obj (typeField (t! "I")))
  | .globalPhase phase o => .ok (.obj (typeField (t! "GlobalPhase") ++ controlFields o ++ [(t! "phase", .real phase)]))
  | .one k o => .ok (.obj (typeField (gate1Name k) ++ targetField o ++ controlFields o ++ gate1Angles k))
  | .swap o => .ok (.obj (typeField (t! "Swap") ++ targetField o ++ controlFields o))
  | .ecr g => .ok (.obj (typeField (t! "Ecr") ++ targetField g.o ++ controlFields g.o ++
      [(t! "physical_control", Json.ofList (maskToVector g.pc)), (t! "physical_target", Json.ofList (maskToVector g.pt))]))
  | .perm g => .ok (.obj (typeField (t! "Permutation") ++ targetField g.o ++ [(t! "dst", Json.ofList g.dst)]))
  | .dense g => .ok (.obj (typeField (t! "DenseMatrix") ++ targetField g.o ++ controlFields g.o ++ [(t! "matrix", matrixToJson g.mat)]))
  | .sparse g => do
    let m ← g.mat.toExternal
    pure (.obj (typeField (t! "SparseMatrix") ++ targetField g.o ++ controlFields g.o ++ [(t! "matrix", sparseToJson m.sparseView)]))
  | .pauli g => do
    let p ← g.p.toJson
    pure (.obj (typeField (t! "Pauli") ++ controlFields g.o ++ [(t! "pauli", p)]))
  | .pauliRot g angle => do
    let p ← g.p.toJson
    pure (.obj (typeField (t! "PauliRotation") ++ controlFields g.o ++ [(t! "pauli", p), (t! "angle", .real angle)]))

/-- the masks every reader builds from "target", "control" and "control_value" (/repo/src/gate/gate_standard.cpp:1458-1463 and the like) -/
noncomputable def Json.masks (j : Json) : Res (U64 × U64 × U64) := do
  let controls ← j.uints (t! "control")
  let values ← j.uints (t! "control_value")
  let targets ← j.uints (t! "target")
  let t ← vectorToMask targets
  let c ← vectorToMask controls
  let v ← vectorToMask2 controls values 0
  pure (t, c, v)

/-- the masks of a reader without "target" (/repo/src/gate/gate_standard.cpp:1445-1449, /repo/src/gate/gate_pauli.cpp:90-94) -/
noncomputable def Json.controlMasks (j : Json) : Res (U64 × U64) := do
  let controls ← j.uints (t! "control")
  let values ← j.uints (t! "control_value")
  let c ← vectorToMask controls
  let v ← vectorToMask2 controls values 0
  pure (c, v)

/-- a reader of a one-qubit gate without angle (/repo/src/gate/gate_standard.cpp:1455-1481) -/
noncomputable def readPlain (k : Gate1) (j : Json) : Res UGate := do
  let m ← j.masks
  let o ← gateBase m.1 m.2.1 m.2.2
  pure (.one k o)

/-- a reader of a one-qubit gate with angles, in the order of the constructor's parameters
(/repo/src/gate/gate_standard.cpp:1484-1535) -/
noncomputable def readAngles (k : List ℝ → Option Gate1) (keys : List Text) (j : Json) : Res UGate := do
  let m ← j.masks
  let as ← keys.mapM j.number
  let o ← gateBase m.1 m.2.1 m.2.2
  match k as with
  | some g => pure (.one g o)
  | none => .error (.throw "unreachable")

/-- the constructors of the classes with one, two and three angles -/
def oneAngle (f : ℝ → Gate1) : List ℝ → Option Gate1
  | [a] => some (f a)
  | _ => none
/-- two angles read from JSON make a gate (U2, /repo/include/scaluq/gate/gate_standard.hpp, see `readAngles`) -/
def twoAngles (f : ℝ → ℝ → Gate1) : List ℝ → Option Gate1
  | [a, b] => some (f a b)
  | _ => none
/-- the same with three angles (U3) -/
def threeAngles (f : ℝ → ℝ → ℝ → Gate1) : List ℝ → Option Gate1
  | [a, b, c] => some (f a b c)
  | _ => none

/-- /repo/src/gate/gate_standard.cpp:1442-1451 -/
noncomputable def readGlobalPhase (j : Json) : Res UGate := do
  let m ← j.controlMasks
  let phase ← j.number (t! "phase")
  let o ← gateBase 0 m.1 m.2
  pure (.globalPhase phase o)

/-- /repo/src/gate/gate_standard.cpp:1539-1547 -/
noncomputable def readSwap (j : Json) : Res UGate := do
  let m ← j.masks
  let o ← gateBase m.1 m.2.1 m.2.2
  pure (.swap o)

/-- /repo/src/gate/gate_standard.cpp:1551-1561 -/
noncomputable def readEcr (j : Json) : Res UGate := do
  let m ← j.masks
  let pcs ← j.uints (t! "physical_control")
  let pc ← vectorToMask pcs
  let pts ← j.uints (t! "physical_target")
  let pt ← vectorToMask pts
  let o ← gateBase m.1 m.2.1 m.2.2
  pure (.ecr ⟨o, pc, pt⟩)

/-- /repo/src/gate/gate_standard.cpp:1564-1569 -/
noncomputable def readPermutation (j : Json) : Res UGate := do
  let dst ← j.uints (t! "dst")
  let g ← permCtor dst
  pure (.perm g)

/-- the constructors /repo/include/scaluq/gate/gate_pauli.hpp:17-22 and 64-71 -/
def pauliCtor (c v : U64) (p : PauliOp) : Res PauliGate := do
  let o ← gateBase (p.x ||| p.z) c v
  pure ⟨p, o⟩

/-- /repo/src/gate/gate_pauli.cpp:87-96 -/
noncomputable def readPauli (j : Json) : Res UGate := do
  let m ← j.controlMasks
  let a ← j.at (t! "pauli")
  let p ← PauliOp.ofJson a
  let g ← pauliCtor m.1 m.2 p
  pure (.pauli g)

/-- /repo/src/gate/gate_pauli.cpp:98-109 -/
noncomputable def readPauliRotation (j : Json) : Res UGate := do
  let m ← j.controlMasks
  let a ← j.at (t! "pauli")
  let p ← PauliOp.ofJson a
  let angle ← j.number (t! "angle")
  let g ← pauliCtor m.1 m.2 p
  pure (.pauliRot g angle)

/-- the branches of /repo/include/scaluq/gate/gate.hpp:630-658 for gates without randomness; `none` if there is no branch -/
noncomputable def readUGate (type : Text) (j : Json) : Option (Res UGate) :=
  if type = (t! "I") then some (.ok .ident)
  else if type = (t! "GlobalPhase") then some (readGlobalPhase j)
  else if type = (t! "X") then some (readPlain .X j)
  else if type = (t! "Y") then some (readPlain .Y j)
  else if type = (t! "Z") then some (readPlain .Z j)
  else if type = (t! "H") then some (readPlain .H j)
  else if type = (t! "S") then some (readPlain .S j)
  else if type = (t! "Sdag") then some (readPlain .Sdag j)
  else if type = (t! "T") then some (readPlain .T j)
  else if type = (t! "Tdag") then some (readPlain .Tdag j)
  else if type = (t! "SqrtX") then some (readPlain .SqrtX j)
  else if type = (t! "SqrtXdag") then some (readPlain .SqrtXdag j)
  else if type = (t! "SqrtY") then some (readPlain .SqrtY j)
  else if type = (t! "SqrtYdag") then some (readPlain .SqrtYdag j)
  else if type = (t! "RX") then some (readAngles (oneAngle .RX) [(t! "angle")] j)
  else if type = (t! "RY") then some (readAngles (oneAngle .RY) [(t! "angle")] j)
  else if type = (t! "RZ") then some (readAngles (oneAngle .RZ) [(t! "angle")] j)
  else if type = (t! "U1") then some (readAngles (oneAngle .U1) [(t! "lambda")] j)
  else if type = (t! "U2") then some (readAngles (twoAngles .U2) [(t! "phi"), (t! "lambda")] j)
  else if type = (t! "U3") then some (readAngles (threeAngles .U3) [(t! "theta"), (t! "phi"), (t! "lambda")] j)
  else if type = (t! "Swap") then some (readSwap j)
  else if type = (t! "Ecr") then some (readEcr j)
  else if type = (t! "Permutation") then some (readPermutation j)
  else if type = (t! "Pauli") then some (readPauli j)
  else if type = (t! "PauliRotation") then some (readPauliRotation j)
  else none

/-- /repo/include/scaluq/gate/gate_measurement.hpp:46-51 -/
def MeasGate.toJson (g : MeasGate) : Json :=
  .obj (typeField (t! "Measurement") ++ targetField g.o ++ [(t! "classical_bit", .uint g.cbit), (t! "reset", .bool g.reset)])

/-- /repo/src/gate/gate_measurement.cpp:88-97 -/
noncomputable def readMeasurement (j : Json) : Res MeasGate := do
  let reset ← if j.contains (t! "reset") then do
      let r ← j.at (t! "reset")
      r.asBool
    else pure false
  let targets ← j.uints (t! "target")
  let t ← vectorToMask targets
  let a ← j.at (t! "classical_bit")
  let cbit ← a.asUInt
  let o ← gateBase t 0 0
  pure ⟨o, cbit, reset⟩

/-- `get_as_json` of any gate; probabilistic: /repo/include/scaluq/gate/gate_probabilistic.hpp:85-89 -/
noncomputable def Gate.toJson : Gate → Res Json
  | .det g => g.toJson
  | .meas g => .ok g.toJson
  | .prob t => do
    let l ← t.gates.mapM UGate.toJson
    pure (.obj (typeField (t! "Probabilistic") ++ [(t! "gate_list", .arr l), (t! "distribution", Json.ofReals t.dist)]))

/-- `j.at("gate_list").get<std::vector<Gate>>()`: the elements to convert -/
def Json.gateArray (j : Json) : Res (List Json) := do
  let a ← j.at (t! "gate_list")
  a.asArray

/-- `j.at("type")` as a string -/
def Json.typeName (j : Json) : Res Text := do
  let a ← j.at (t! "type")
  a.asText

theorem lookup_lt {k : Text} {v : Json} : ∀ {l : List (Text × Json)}, l.lookup k = some v → sizeOf v < sizeOf l
  | [], h => by simp at h
  | (k', v') :: l, h => by
    rw [List.lookup_cons] at h
    split at h
    · injection h with h
      subst h
      simp
      omega
    · have := lookup_lt h
      simp
      omega

theorem at_lt {j v : Json} {k : Text} (h : j.at k = .ok v) : sizeOf v < sizeOf j := by
  unfold Json.at at h
  split at h
  · split at h
    · rename_i _ _ h1
      injection h with h
      subst h
      have := lookup_lt h1
      simp
      omega
    · cases h
  · cases h

theorem gateArray_lt {j x : Json} {l : List Json} (h : j.gateArray = .ok l) (hx : x ∈ l) : sizeOf x < sizeOf j := by
  unfold Json.gateArray at h
  cases ha : j.at (t! "gate_list") with
  | error e => rw [ha] at h; cases h
  | ok a =>
    rw [ha] at h
    change a.asArray = .ok l at h
    cases a <;> first | cases h | skip
    have h1 := at_lt ha
    have h2 := List.sizeOf_lt_of_mem hx
    simp at h1
    omega

/-- `from_json` of a gate (/repo/include/scaluq/gate/gate.hpp:626-659); probabilistic: /repo/src/gate/gate_probabilistic.cpp:130-137 -/
noncomputable def Gate.ofJson (j : Json) : Res Gate :=
  match j.typeName with
  | .error e => .error e
  | .ok type =>
    if type = (t! "Measurement") then do
      let g ← readMeasurement j
      pure (.meas g)
    else if type = (t! "Probabilistic") then do
      let dist ← j.distribution
      match _h : j.gateArray with
      | .error e => .error e
      | .ok l => do
        let gs ← l.attach.mapM fun x => Gate.ofJson x.1
        mkProbabilistic (dist.map some) gs
    else match readUGate type j with
      | some r => do
        let g ← r
        pure (.det g)
      | none => .error (.throw "GatePtr::from_json: unsupported gate type")
termination_by sizeOf j
decreasing_by exact gateArray_lt _h x.2

/-! ## parametric gates -/

/-- the names of /repo/include/scaluq/gate/param_gate_standard.hpp:44, 86, 128 -/
def axisName : RotAxis → Text
  | .X => (t! "ParamRX")
  | .Y => (t! "ParamRY")
  | .Z => (t! "ParamRZ")

/-- `get_as_json`: /repo/include/scaluq/gate/param_gate_standard.hpp:43-49 (RX; RY and RZ alike),
/repo/include/scaluq/gate/param_gate_pauli.hpp:52-58 -/
def PRot.toJson : PRot → Res Json
  | .axis a o pcoef => .ok (.obj (typeField (axisName a) ++ targetField o ++ controlFields o ++ [(t! "param_coef", .real pcoef)]))
  | .pauli g pcoef => do
    let p ← g.p.toJson
    pure (.obj (typeField (t! "ParamPauliRotation") ++ controlFields g.o ++ [(t! "pauli", p), (t! "param_coef", .real pcoef)]))

/-- `arg` as JSON for an entry of a parametric probabilistic gate -/
noncomputable def PLeaf.toJson : PLeaf → Res Json
  | .fixed g => g.toJson
  | .rot r => r.toJson

/-- `get_as_json` of any parametric gate; probabilistic: /repo/include/scaluq/gate/param_gate_probabilistic.hpp:95-103 -/
noncomputable def PGate.toJson : PGate → Res Json
  | .rot r => r.toJson
  | .prob t => do
    let l ← t.gates.mapM PLeaf.toJson
    pure (.obj (typeField (t! "ParamProbabilistic") ++ [(t! "gate_list", .arr l), (t! "distribution", Json.ofReals t.dist)]))

/-- /repo/src/gate/param_gate_standard.cpp:328-343 -/
noncomputable def readAxis (a : RotAxis) (j : Json) : Res PGate := do
  let m ← j.masks
  let pcoef ← j.number (t! "param_coef")
  let o ← gateBase m.1 m.2.1 m.2.2
  pure (.rot (.axis a o pcoef))

/-- /repo/src/gate/param_gate_pauli.cpp:139-149 -/
noncomputable def readParamPauli (j : Json) : Res PGate := do
  let m ← j.controlMasks
  let a ← j.at (t! "pauli")
  let p ← PauliOp.ofJson a
  let pcoef ← j.number (t! "param_coef")
  let g ← pauliCtor m.1 m.2 p
  pure (.rot (.pauli g pcoef))

theorem items_lt {j x : Json} (hx : x ∈ j.items) : sizeOf x ≤ sizeOf j := by
  unfold Json.items at hx
  split at hx
  · simp at hx
  · have := List.sizeOf_lt_of_mem hx
    simp
    omega
  · rename_i fields
    rw [List.mem_map] at hx
    obtain ⟨p, hp, rfl⟩ := hx
    rw [List.mem_mergeSort] at hp
    have h := List.sizeOf_lt_of_mem hp
    have : sizeOf p.2 < sizeOf p := by
      cases p
      simp
    simp
    omega
  · rw [List.mem_singleton] at hx
    rw [hx]

/-- `from_json` of a parametric gate (/repo/include/scaluq/gate/param_gate.hpp:365-376); probabilistic:
/repo/src/gate/param_gate_probabilistic.cpp:198-211 -/
noncomputable def PGate.ofJson (j : Json) : Res PGate :=
  match j.typeName with
  | .error e => .error e
  | .ok type =>
    if type = (t! "ParamRX") then readAxis .X j
    else if type = (t! "ParamRY") then readAxis .Y j
    else if type = (t! "ParamRZ") then readAxis .Z j
    else if type = (t! "ParamPauliRotation") then readParamPauli j
    else if type = (t! "ParamProbabilistic") then do
      let dist ← j.distribution
      match _h : j.at (t! "gate_list") with
      | .error e => .error e
      | .ok a => do
        let gs ← a.items.attach.mapM fun x => do
          let name ← x.1.typeName
          if (t! "Param").isPrefixOf name then do
            let g ← PGate.ofJson x.1
            pure (.inr g)
          else do
            let g ← Gate.ofJson x.1
            pure (.inl g)
        mkParamProbabilistic (dist.map some) gs
    else .error (.throw "ParamGatePtr::from_json: unsupported param gate type")
termination_by sizeOf j
decreasing_by exact lt_of_le_of_lt (items_lt x.2) (at_lt _h)

/-! ## circuits -/

/-- one iteration of /repo/include/scaluq/circuit/circuit.hpp:154-166 -/
noncomputable def entryToJson (e : Item × Option Condition) : Res Json :=
  match e.2 with
  | some _ => .error (.throw "Circuit::to_json: classically controlled instructions cannot be serialized.")
  | none =>
    match e.1 with
    | .inl g => do
      let j ← g.toJson
      pure (.obj [(t! "gate", j)])
    | .inr (p, key) => do
      let j ← p.toJson
      pure (.obj [(t! "gate", j), (t! "key", .str key.toList)])

/-- /repo/include/scaluq/circuit/circuit.hpp:152-167; `_classical_conditions[idx]` for every index of the gate list -/
noncomputable def Circuit.toJson (C : Circuit) : Res Json :=
  if C.gates.length ≤ C.conds.length then do
    let l ← (C.gates.zip C.conds).mapM entryToJson
    pure (.obj [(t! "gate_list", .arr l)])
  else .error (.ub "_classical_conditions[idx] out of range")

/-- one iteration of /repo/include/scaluq/circuit/circuit.hpp:172-179 -/
noncomputable def addFromJson (C : Circuit) (x : Json) : Res Circuit :=
  if x.contains (t! "key") then do
    let a ← x.at (t! "gate")
    let g ← PGate.ofJson a
    let b ← x.at (t! "key")
    let k ← b.asText
    pure (C.addParamGate g (String.ofList k))
  else do
    let a ← x.at (t! "gate")
    let g ← Gate.ofJson a
    pure (C.addGate g)

/-- /repo/include/scaluq/circuit/circuit.hpp:169-180 -/
noncomputable def Circuit.ofJson (j : Json) : Res Circuit := do
  let l ← j.at (t! "gate_list")
  l.items.foldlM addFromJson Circuit.empty

end Verif.Model
