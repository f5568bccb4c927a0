import Verif.Model.Mask

/-!
# Gate pointers

Model of `GatePtr` (/repo/include/scaluq/gate/gate.hpp:558-618) and `ParamGatePtr` (/repo/include/scaluq/gate/param_gate.hpp:297-360).
The two texts are the same up to names, so one model serves both: `C` are the implementation classes, `Ty` the enumeration of types,
`typeOf` and `unknown` are `get_gate_type` (/repo/include/scaluq/gate/gate.hpp:122-202) resp. `get_param_gate_type`
(/repo/include/scaluq/gate/param_gate.hpp:38-55).  A static type is an implementation class or the base class (`none`).
-/

namespace Verif.Model
open Verif

/-- `ExecutionSpace` of a build with CUDA (/repo/include/scaluq/types.hpp:18); without it `Default` is `Host` -/
inductive Space where
  | Host | HostSerial | Default
deriving DecidableEq

/-- the classes derived from `GateBase` (/repo/include/scaluq/gate/gate.hpp:22-83) -/
inductive GateClass where
  | I | GlobalPhase | X | Y | Z | H | S | Sdag | T | Tdag | SqrtX | SqrtXdag | SqrtY | SqrtYdag | P0 | P1 | Measurement | RX | RY | RZ
  | U1 | U2 | U3 | Swap | Ecr | Permutation | Pauli | PauliRotation | Probabilistic
  | SparseMatrix (s : Space) | DenseMatrix (s : Space)
deriving DecidableEq

/-- `GateType` (/repo/include/scaluq/gate/gate.hpp:87-120) -/
inductive GateType where
  | Unknown | I | GlobalPhase | X | Y | Z | H | S | Sdag | T | Tdag | SqrtX | SqrtXdag | SqrtY | SqrtYdag | P0 | P1 | Measurement
  | RX | RY | RZ | U1 | U2 | U3 | Swap | Ecr | Permutation | Pauli | PauliRotation | SparseMatrix | DenseMatrix | Probabilistic
deriving DecidableEq

/-- `get_gate_type` on the implementation classes (/repo/include/scaluq/gate/gate.hpp:127-200) -/
def GateClass.type : GateClass → GateType
  | .I => .I | .GlobalPhase => .GlobalPhase | .X => .X | .Y => .Y | .Z => .Z | .H => .H | .S => .S | .Sdag => .Sdag
  | .T => .T | .Tdag => .Tdag | .SqrtX => .SqrtX | .SqrtXdag => .SqrtXdag | .SqrtY => .SqrtY | .SqrtYdag => .SqrtYdag
  | .P0 => .P0 | .P1 => .P1 | .Measurement => .Measurement | .RX => .RX | .RY => .RY | .RZ => .RZ | .U1 => .U1 | .U2 => .U2
  | .U3 => .U3 | .Swap => .Swap | .Ecr => .Ecr | .Permutation => .Permutation | .Pauli => .Pauli
  | .PauliRotation => .PauliRotation | .Probabilistic => .Probabilistic
  | .SparseMatrix _ => .SparseMatrix | .DenseMatrix _ => .DenseMatrix

/-- the classes derived from `ParamGateBase` (/repo/include/scaluq/gate/param_gate.hpp:15-24) -/
inductive ParamGateClass where
  | ParamRX | ParamRY | ParamRZ | ParamPauliRotation | ParamProbabilistic
deriving DecidableEq

/-- `ParamGateType` (/repo/include/scaluq/gate/param_gate.hpp:28-36) -/
inductive ParamGateType where
  | Unknown | ParamRX | ParamRY | ParamRZ | ParamPauliRotation | ParamProbabilistic | Error
deriving DecidableEq

/-- `get_param_gate_type` on the implementation classes (/repo/include/scaluq/gate/param_gate.hpp:43-53) -/
def ParamGateClass.type : ParamGateClass → ParamGateType
  | .ParamRX => .ParamRX | .ParamRY => .ParamRY | .ParamRZ => .ParamRZ
  | .ParamPauliRotation => .ParamPauliRotation | .ParamProbabilistic => .ParamProbabilistic

/-- what `get_gate_type` needs to know about a family of classes -/
structure GateFamily (C Ty : Type) where
  typeOf : C → Ty
  unknown : Ty

/-- the classes of gates -/
def gateFamily : GateFamily GateClass GateType := ⟨GateClass.type, .Unknown⟩

/-- the classes of parametric gates -/
def paramGateFamily : GateFamily ParamGateClass ParamGateType := ⟨ParamGateClass.type, .Unknown⟩

/-- `get_gate_type<T>()`: the base class has the type `Unknown` (/repo/include/scaluq/gate/gate.hpp:125-126) -/
def GateFamily.staticType {C Ty : Type} (F : GateFamily C Ty) : Option C → Ty
  | none => F.unknown
  | some c => F.typeOf c

/-- a gate object on the heap: its class and its contents -/
structure HeapGate (C α : Type) where
  cls : C
  data : α

/-- `GatePtr<T>`: the static type, `_gate_ptr`, `_gate_type` (/repo/include/scaluq/gate/gate.hpp:564-566) -/
structure GatePtr (C Ty α : Type) where
  static : Option C
  ptr : Option (HeapGate C α)
  tag : Ty

variable {C Ty α : Type}

/-- the default constructor (/repo/include/scaluq/gate/gate.hpp:572) -/
def GatePtr.null (F : GateFamily C Ty) (T : Option C) : GatePtr C Ty α := ⟨T, none, F.staticType T⟩

/-- the constructor from `std::shared_ptr<const U>` (/repo/include/scaluq/gate/gate.hpp:573-590) -/
def GatePtr.ofShared [DecidableEq C] (F : GateFamily C Ty) (T U : Option C) (p : Option (HeapGate C α)) : Res (GatePtr C Ty α) :=
  if T = U then .ok ⟨T, p, F.staticType T⟩
  else match T with
    | none => .ok ⟨none, p, F.staticType U⟩
    | some c =>
      match p with
      | some o => if o.cls = c then .ok ⟨some c, some o, F.typeOf c⟩ else .error (.throw "invalid gate cast")
      | none => .error (.throw "invalid gate cast")

/-- the constructor from `GatePtr<U>` (/repo/include/scaluq/gate/gate.hpp:591-609); `static_pointer_cast` of an object that is not of the
class is undefined behaviour as soon as the pointer is used -/
def GatePtr.convert [DecidableEq C] [DecidableEq Ty] (F : GateFamily C Ty) (T : Option C) (g : GatePtr C Ty α) : Res (GatePtr C Ty α) :=
  if T = g.static then .ok g
  else match T with
    | none => .ok ⟨none, g.ptr, g.tag⟩
    | some c =>
      if g.tag ≠ F.typeOf c then .error (.throw "invalid gate cast")
      else match g.ptr with
        | none => .ok ⟨some c, none, g.tag⟩
        | some o => if o.cls = c then .ok ⟨some c, some o, g.tag⟩ else .error (.ub "static_pointer_cast to another class")

/-- `operator->` (/repo/include/scaluq/gate/gate.hpp:612-617) -/
def GatePtr.deref (g : GatePtr C Ty α) : Res (HeapGate C α) :=
  match g.ptr with
  | none => .error (.throw "GatePtr::operator->(): Gate is Null")
  | some o => .ok o

/-- factories: `GateFactory::create_gate<T>` (/repo/include/scaluq/gate/gate_factory.hpp:13-19), and `from_json`, where
`GetGateFromJson<T>::get` returns a `std::shared_ptr<const T>` (/repo/include/scaluq/gate/gate.hpp:626-661) -/
def GatePtr.create [DecidableEq C] (F : GateFamily C Ty) (o : HeapGate C α) : Res (GatePtr C Ty α) := GatePtr.ofShared F none (some o.cls) (some o)

/-- `Gate<Prec>(gate->get_inverse())` (/repo/src/circuit/circuit.cpp:317, /repo/src/gate/gate_probabilistic.cpp:84,
/repo/include/scaluq/gate/gate.hpp:868-871): `get_inverse` of every class returns `std::shared_ptr<const GateBase<Prec>>`; `inv` is the
object it returns -/
def GatePtr.ofInverse [DecidableEq C] (F : GateFamily C Ty) (inv : HeapGate C α) : Res (GatePtr C Ty α) := GatePtr.ofShared F none none (some inv)

end Verif.Model
