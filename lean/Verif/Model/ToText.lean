import Verif.Model.Qasm
import Verif.Model.OperatorBatched
import Verif.Model.PauliText
import Verif.Model.Density

/-! # Model: `to_string`

Text written to a `std::stringstream`.  `<<` of a `double` is an arbitrary function `num` (the format of the stream is the default one and
never changed); `<<` of a `std::complex` writes `(re,im)` as the standard prescribes; `<<` of an unsigned number and `std::to_string`
write decimal digits. -/

namespace Verif.Model
open Verif Verif.Spec

/-- `operator<<` of `std::complex<double>` -/
def complexText (num : ℝ → Text) (z : ℂ) : Text := '(' :: (num z.re ++ ',' :: (num z.im ++ t! ")"))

/-- `operator<<` of `bool` with `std::boolalpha` -/
def boolText : Bool → Text
  | true => t! "true"
  | false => t! "false"

/-- the lambda of /repo/src/state/state_vector.cpp:329-335 (and /repo/src/state/state_vector_batched.cpp:550-556,
/repo/src/state/density_matrix.cpp:509-515): `while (len--) tmp += ((n >> len) & 1) + '0';` -/
def binaryText (n : U64) : Nat → Text
  | 0 => []
  | len + 1 => Char.ofNat ((((n >>> len) &&& 1).toNat) + '0'.toNat) :: binaryText n len

/-- the loop over the amplitudes (/repo/src/state/state_vector.cpp:327-337, /repo/src/state/state_vector_batched.cpp:548-558) -/
noncomputable def amplitudesText (num : ℝ → Text) (n : Nat) (amp : U64 → ℂ) : Text :=
  ((List.range (2 ^ n)).map fun i => t! "  " ++ (binaryText (BitVec.ofNat 64 i) n ++ (t! " : " ++ (complexText num (amp (BitVec.ofNat 64 i)) ++ t! "\n")))).flatten

/-- /repo/src/state/state_vector.cpp:320-339 `StateVector::to_string`; `amp` is the copy made by `get_amplitudes` -/
noncomputable def stateText (num : ℝ → Text) (n : Nat) (amp : U64 → ℂ) : Text :=
  t! "Qubit Count : " ++ (decimal n ++ '\n' :: (t! "Dimension : " ++ (decimal (2 ^ n) ++ '\n' :: (t! "State vector : " ++
    '\n' :: amplitudesText num n amp))))

/-- /repo/src/state/state_vector_batched.cpp:537-561 `StateVectorBatched::to_string`; `amp b` is row `b` of `get_amplitudes` -/
noncomputable def batchText (num : ℝ → Text) (B n : Nat) (amp : Nat → U64 → ℂ) : Text :=
  t! "Qubit Count : " ++ (decimal n ++ '\n' :: (t! "Dimension : " ++ (decimal (2 ^ n) ++ '\n' ::
    ((List.range B).map fun b => t! "--------------------" ++ '\n' :: (t! "Batch_id : " ++ (decimal b ++ '\n' :: (t! "State vector : " ++
      '\n' :: amplitudesText num n (amp b))))).flatten)))

/-- /repo/src/state/density_matrix.cpp:501-524 `DensityMatrix::to_string` -/
noncomputable def DM.text (num : ℝ → Text) (d : DM) : Text :=
  t! "Qubit Count : " ++ (decimal d.n ++ '\n' :: (t! "Dimension : " ++ (decimal (2 ^ d.n) ++ '\n' :: (t! "Is Hermitian : " ++
    (boolText d.hermitian ++ '\n' :: (t! "Density Matrix : " ++ '\n' ::
    ((List.range (2 ^ d.n)).map fun i => ((List.range (2 ^ d.n)).map fun j =>
      t! "  (" ++ (binaryText (BitVec.ofNat 64 i) d.n ++ (t! ", " ++ (binaryText (BitVec.ofNat 64 j) d.n ++ (t! ") : " ++
        (complexText num (d.raw (BitVec.ofNat 64 i, BitVec.ofNat 64 j)) ++ t! "\n")))))).flatten).flatten))))))

/-- /repo/src/operator/pauli_operator.cpp:484-489 `PauliOperator::to_string` -/
noncomputable def PauliOp.text (num : ℝ → Text) (p : PauliOp) : Res Text := do
  let s ← p.getString
  pure (complexText num p.coef ++ (t! " \"" ++ (s ++ t! "\"")))

/-- the loop of /repo/src/operator/operator.cpp:29-37 -/
noncomputable def termsText (num : ℝ → Text) : List PauliOp → Res Text
  | [] => .ok []
  | p :: ps => do
    let s ← p.text num
    let r ← termsText num ps
    pure (s ++ '\n' :: r)

/-- /repo/src/operator/operator.cpp:29-37 `Operator::to_string` -/
noncomputable def Op.text (num : ℝ → Text) (o : Op) : Res Text := termsText num o.terms

/-- the loop of /repo/src/operator/operator_batched.cpp:417-421 over the indices `is` -/
noncomputable def OpB.textLoop (num : ℝ → Text) (o : OpB) : List Nat → Res Text
  | [] => .ok []
  | i :: is => do
    let op ← o.getOperatorAt i
    let s ← op.text num
    let r ← o.textLoop num is
    pure (t! "Operator " ++ (decimal i ++ (t! ":\n" ++ (s ++ r))))

/-- /repo/src/operator/operator_batched.cpp:414-423 `OperatorBatched::to_string`.  A default constructed object has no rows;
`_row_ptr.extent(0) - 1` then is the largest number of 64 bits, and the first call of `get_operator_at` throws. -/
noncomputable def OpB.text (num : ℝ → Text) (o : OpB) : Res Text :=
  if o.rowPtr.length = 0 then .error (.throw "OperatorBatched::get_operator_at: index out of range")
  else o.textLoop num (List.range (o.rowPtr.length - 1))

/-! ## gates -/

/-- `for (i...) ss << xs[i] << (i == xs.size() - 1 ? "" : ", ")` -/
def listLoop : List Nat → Text
  | [] => []
  | [x] => decimal x
  | x :: xs => decimal x ++ (t! ", " ++ listLoop xs)

/-- a line `key: {...}` -/
def listLine (indent key : Text) (xs : List Nat) : Text := indent ++ (key ++ ('{' :: (listLoop xs ++ t! "}")))

/-- /repo/src/gate/gate.cpp:100-119 `get_qubit_info_as_string` -/
def qubitInfo (indent : Text) (o : Operands) : Text :=
  listLine indent (t! "  Target Qubits: ") (maskToVector o.t) ++ '\n' :: (listLine indent (t! "  Control Qubits: ") (maskToVector o.c) ++
    '\n' :: listLine indent (t! "  Control Value: ") (maskToVector2 o.c o.v))

/-- the names of the one-qubit gates and of their parameters (/repo/src/gate/gate_standard.cpp:117-1183) -/
def gate1Label : Gate1 → Text × List (Text × ℝ)
  | .X => (t! "X", [])
  | .Y => (t! "Y", [])
  | .Z => (t! "Z", [])
  | .H => (t! "H", [])
  | .S => (t! "S", [])
  | .Sdag => (t! "Sdag", [])
  | .T => (t! "T", [])
  | .Tdag => (t! "Tdag", [])
  | .SqrtX => (t! "SqrtX", [])
  | .SqrtXdag => (t! "SqrtXdag", [])
  | .SqrtY => (t! "SqrtY", [])
  | .SqrtYdag => (t! "SqrtYdag", [])
  | .P0 => (t! "P0", [])
  | .P1 => (t! "P1", [])
  | .RX a => (t! "RX", [(t! "Angle", a)])
  | .RY a => (t! "RY", [(t! "Angle", a)])
  | .RZ a => (t! "RZ", [(t! "Angle", a)])
  | .U1 l => (t! "U1", [(t! "Lambda", l)])
  | .U2 p l => (t! "U2", [(t! "Phi", p), (t! "Lambda", l)])
  | .U3 t p l => (t! "U3", [(t! "Theta", t), (t! "Phi", p), (t! "Lambda", l)])

/-- lines `  Angle: 0.3` -/
def paramLines (num : ℝ → Text) (indent : Text) (ps : List (Text × ℝ)) : Text :=
  (ps.map fun a => indent ++ (t! "  " ++ (a.1 ++ (t! ": " ++ (num a.2 ++ t! "\n"))))).flatten

/-- the first line -/
def typeLine (indent name : Text) : Text := indent ++ (t! "Gate Type: " ++ (name ++ t! "\n"))

/-- `to_string(indent)` of the one-qubit gates (/repo/src/gate/gate_standard.cpp:116-1183).  `U2GateImpl::to_string` (lines 1106-1114)
writes the angles before the type. -/
def gate1Text (num : ℝ → Text) (indent : Text) (k : Gate1) (o : Operands) : Text :=
  match k with
  | .U2 p l => paramLines num indent [(t! "Phi", p), (t! "Lambda", l)] ++ (typeLine indent (t! "U2") ++ qubitInfo indent o)
  | k => typeLine indent (gate1Label k).1 ++ (paramLines num indent (gate1Label k).2 ++ qubitInfo indent o)

/-- the list in square brackets of /repo/src/gate/gate_standard.cpp:1405-1410 -/
def permLoop (dst : List Nat) : Text := (t! ", ").intercalate (dst.map decimal)

/-- the Pauli gates (/repo/src/gate/gate_pauli.cpp:6-17, 50-62, /repo/src/gate/param_gate_pauli.cpp:16-27) -/
def pauliText (indent name : Text) (params : Text) (g : PauliGate) : Res Text := do
  let s ← g.p.getString
  pure (typeLine indent name ++ (params ++ (listLine indent (t! "  Control Qubits: ") (maskToVector g.o.c) ++ '\n' ::
    (indent ++ (t! "  Pauli Operator: \"" ++ (s ++ t! "\""))))))

/-- `to_string(indent)` of the gates with one operation: /repo/src/gate/gate_standard.cpp:11-17 (`I`), 59-66 (`GlobalPhase`), 116-1183 (one
target), 1237-1243 (`Swap`), 1303-1333 (`Ecr`; its two lists have one element each), 1401-1413 (`Permutation`),
/repo/src/gate/gate_matrix.cpp:103-109, 195-201, /repo/src/gate/gate_pauli.cpp:6-17, 50-62 -/
noncomputable def UGate.text (num : ℝ → Text) (indent : Text) : UGate → Res Text
  | .ident => .ok (typeLine indent (t! "I") ++ qubitInfo indent ⟨0, 0, 0⟩)
  | .globalPhase phase o => .ok (typeLine indent (t! "GlobalPhase") ++ (paramLines num indent [(t! "Phase", phase)] ++ qubitInfo indent o))
  | .one k o => .ok (gate1Text num indent k o)
  | .swap o => .ok (typeLine indent (t! "Swap") ++ qubitInfo indent o)
  | .ecr g => do
    let c ← elemAt (maskToVector g.pc) 0
    let t ← elemAt (maskToVector g.pt) 0
    pure (typeLine indent (t! "Ecr") ++ (indent ++ (t! "  Physical Control Qubit: {" ++ (decimal c ++ (t! "}\n" ++
      (indent ++ (t! "  Physical Target Qubit: {" ++ (decimal t ++ (t! "}\n" ++ qubitInfo indent g.o)))))))))
  | .perm g => .ok (typeLine indent (t! "Permutation") ++ (indent ++ (t! "Permutation: [" ++ (permLoop g.dst ++ (t! "]\n" ++ qubitInfo indent g.o)))))
  | .dense g => .ok (typeLine indent (t! "DenseMatrix") ++ qubitInfo indent g.o)
  | .sparse g => .ok (typeLine indent (t! "SparseMatrix") ++ qubitInfo indent g.o)
  | .pauli g => pauliText indent (t! "Pauli") [] g
  | .pauliRot g angle => pauliText indent (t! "PauliRotation") (paramLines num indent [(t! "Angle", angle)]) g

/-- /repo/src/gate/gate_measurement.cpp:12-20 -/
def MeasGate.text (indent : Text) (g : MeasGate) : Text :=
  typeLine indent (t! "Measurement") ++ (indent ++ (t! "  Classical Bit Index: " ++ (decimal g.cbit ++ '\n' :: (indent ++ (t! "  Reset: " ++
    (boolText g.reset ++ '\n' :: qubitInfo indent g.o))))))

/-- the loop of /repo/src/gate/gate_probabilistic.cpp:94-98 and /repo/src/gate/param_gate_probabilistic.cpp:116-124 -/
noncomputable def alternativesText {G : Type} (num : ℝ → Text) (indent : Text) (text : Text → G → Res Text) : List (ℝ × G) → Res Text
  | [] => .ok []
  | (p, g) :: rest => do
    let s ← text (indent ++ t! "  ") g
    let r ← alternativesText num indent text rest
    pure (indent ++ (t! "  --------------------\n" ++ (indent ++ (t! "  Probability: " ++ (num p ++ '\n' ::
      (s ++ ((if rest.isEmpty then [] else t! "\n") ++ r)))))))

/-- `to_string(indent)` of any gate; /repo/src/gate/gate_probabilistic.cpp:89-100 reads `gate_list()[i]` for `i < dist.size()` -/
noncomputable def Gate.text (num : ℝ → Text) (indent : Text) : Gate → Res Text
  | .det g => g.text num indent
  | .meas g => .ok (g.text indent)
  | .prob t =>
    if t.gates.length < t.dist.length then .error (.ub "gate_list()[i] out of range")
    else do
      let r ← alternativesText num indent (fun i g => UGate.text num i g) (t.dist.zip t.gates)
      pure (typeLine indent (t! "Probabilistic") ++ r)

/-- `to_string(indent)` of parametric rotations: /repo/src/gate/param_gate.cpp:68-83 `get_qubit_info_as_string`,
/repo/src/gate/param_gate_standard.cpp:15-21, 122-128, 229-235, /repo/src/gate/param_gate_pauli.cpp:16-27 -/
noncomputable def PRot.text (num : ℝ → Text) (indent : Text) : PRot → Res Text
  | .axis a o pcoef => .ok (typeLine indent (match a with
      | .X => t! "ParamRX"
      | .Y => t! "ParamRY"
      | .Z => t! "ParamRZ") ++ (indent ++ (t! "  Parameter Coefficient: " ++ (num pcoef ++ '\n' ::
        (listLine indent (t! "  Target Qubits: ") (maskToVector o.t) ++ '\n' :: listLine indent (t! "  Control Qubits: ") (maskToVector o.c))))))
  | .pauli g _ => pauliText indent (t! "ParamPauliRotation") [] g

/-- `to_string(indent)` of parametric gates (/repo/src/gate/param_gate_probabilistic.cpp:111-126) -/
noncomputable def PGate.text (num : ℝ → Text) (indent : Text) : PGate → Res Text
  | .rot r => r.text num indent
  | .prob t =>
    if t.gates.length < t.dist.length then .error (.ub "gate_list()[i] out of range")
    else do
      let r ← alternativesText num indent (fun i (g : PLeaf) => match g with
        | .fixed g => UGate.text num i g
        | .rot r => r.text num i) (t.dist.zip t.gates)
      pure (typeLine indent (t! "ParamProbabilistic") ++ r)

end Verif.Model
