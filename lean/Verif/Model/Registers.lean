import Verif.Model.RandomGate
import Verif.Spec.Registers

/-!
# Classical registers as objects

Model of /repo/include/scaluq/classical_register/classical_register.hpp and classical_register_batched.hpp with their Python bindings.
Objects live in a memory and are never destroyed while a name refers to them (`nb::rv_policy::reference_internal`,
/repo/include/scaluq/classical_register/classical_register_batched.hpp:72, keeps the batch alive); the vectors of a batch never change their length, so references to slots stay
valid.  A name for a register is a reference to an object, or to a slot of one.
-/

namespace Verif.Model
open Verif Verif.Spec

/-- an object: `ClassicalRegister` (/repo/include/scaluq/classical_register/classical_register.hpp:13-15) or `ClassicalRegisterBatched` (/repo/include/scaluq/classical_register/classical_register_batched.hpp:15-18) -/
inductive RegObj
  | single (r : List Bool)
  | batch (B : BReg)

/-- where a `ClassicalRegister&` points: an object of its own, or a slot of a batch -/
inductive RegLoc
  | own (k : Nat)
  | slot (k b : Nat)

/-- the memory and the names -/
structure RegHeap where
  objs : List RegObj
  reg : String → Option RegLoc
  bat : String → Option Nat

/-- no objects -/
def RegHeap.empty : RegHeap := ⟨[], fun _ => none, fun _ => none⟩

/-- `ClassicalRegister(size)` (/repo/include/scaluq/classical_register/classical_register.hpp:18) -/
def newRegister (n : Nat) : List Bool := List.replicate n false

/-- `ClassicalRegisterBatched(register_size, batch_size)` (/repo/include/scaluq/classical_register/classical_register_batched.hpp:21-22) -/
def BReg.new (n B : Nat) : BReg := ⟨n, List.replicate B (newRegister n)⟩

/-- `operator[](index) const` (/repo/include/scaluq/classical_register/classical_register.hpp:27-33) -/
def readRegister (reg : List Bool) (i : Nat) : Res Bool :=
  match reg[i]? with
  | none => .error (.throw "ClassicalRegister::operator[](std::uint64_t): index out of bounds")
  | some b => .ok b

/-- `ClassicalRegister::reset` (/repo/include/scaluq/classical_register/classical_register.hpp:37-39) -/
def resetRegister (reg : List Bool) : List Bool := reg.map fun _ => false

/-- `ClassicalRegisterBatched::operator[]` (/repo/include/scaluq/classical_register/classical_register_batched.hpp:27-38) -/
def BReg.at (B : BReg) (b : Nat) : Res (List Bool) :=
  match B.regs[b]? with
  | none => .error (.throw "ClassicalRegisterBatched: batch index out of bounds")
  | some r => .ok r

/-- `ClassicalRegisterBatched::reset` (/repo/include/scaluq/classical_register/classical_register_batched.hpp:48-50) -/
def BReg.reset (B : BReg) : BReg := { B with regs := B.regs.map resetRegister }

/-- the batch at object `k` -/
def RegHeap.batch (h : RegHeap) (X : String) : Res (Nat × BReg) :=
  match h.bat X with
  | none => .error (.ub "no such object")
  | some k => match h.objs[k]? with
    | some (.batch B) => .ok (k, B)
    | _ => .error (.ub "dangling pointer")

/-- the reference a name stands for -/
def RegHeap.loc (h : RegHeap) (x : String) : Res RegLoc :=
  match h.reg x with
  | none => .error (.ub "no such object")
  | some l => .ok l

/-- the register a reference points to -/
def RegHeap.load (h : RegHeap) : RegLoc → Res (List Bool)
  | .own k => match h.objs[k]? with
    | some (.single r) => .ok r
    | _ => .error (.ub "dangling pointer")
  | .slot k b => match h.objs[k]? with
    | some (.batch B) => match B.regs[b]? with
      | some r => .ok r
      | none => .error (.ub "dangling pointer")
    | _ => .error (.ub "dangling pointer")

/-- assignment through a reference -/
def RegHeap.store (h : RegHeap) (l : RegLoc) (r : List Bool) : Res RegHeap :=
  match l with
  | .own k => match h.objs[k]? with
    | some (.single _) => .ok { h with objs := h.objs.set k (.single r) }
    | _ => .error (.ub "dangling pointer")
  | .slot k b => match h.objs[k]? with
    | some (.batch B) => .ok { h with objs := h.objs.set k (.batch { B with regs := B.regs.set b r }) }
    | _ => .error (.ub "dangling pointer")

/-- C++ `X[b] = y` (/repo/include/scaluq/classical_register/classical_register_batched.hpp:27-32 and the implicit assignment of `ClassicalRegister`): no comparison of sizes -/
def RegHeap.assignSlot (h : RegHeap) (X : String) (b : Nat) (r : List Bool) : Res RegHeap := do
  let (k, B) ← h.batch X
  let _ ← B.at b
  h.store (.slot k b) r

/-- one command; where Python and C++ differ (`assign`) this is Python -/
def RegHeap.step (h : RegHeap) : RegCmd → Res RegHeap
  -- /repo/include/scaluq/classical_register/classical_register.hpp:18
  | .new x n => .ok { h with objs := h.objs ++ [.single (newRegister n)], reg := Function.update h.reg x (some (.own h.objs.length)) }
  -- /repo/include/scaluq/classical_register/classical_register_batched.hpp:21-22
  | .newB X n B => .ok { h with objs := h.objs ++ [.batch (BReg.new n B)], bat := Function.update h.bat X (some h.objs.length) }
  -- a reference is copied
  | .same x y => do
    let l ← h.loc y
    .ok { h with reg := Function.update h.reg x (some l) }
  | .sameB X Y => do
    let (k, _) ← h.batch Y
    .ok { h with bat := Function.update h.bat X (some k) }
  -- implicit copy constructors of the classes
  | .copy x y => do
    let l ← h.loc y
    let r ← h.load l
    .ok { h with objs := h.objs ++ [.single r], reg := Function.update h.reg x (some (.own h.objs.length)) }
  | .copyB X Y => do
    let (_, B) ← h.batch Y
    .ok { h with objs := h.objs ++ [.batch B], bat := Function.update h.bat X (some h.objs.length) }
  -- /repo/include/scaluq/classical_register/classical_register_batched.hpp:27-32, 67-73
  | .ref x X b => do
    let (k, B) ← h.batch X
    let _ ← B.at b
    .ok { h with reg := Function.update h.reg x (some (.slot k b)) }
  -- /repo/include/scaluq/classical_register/classical_register.hpp:20-26, 59-66
  | .set x i v => do
    let l ← h.loc x
    let r ← h.load l
    let r' ← setRegister r i v
    h.store l r'
  -- /repo/include/scaluq/classical_register/classical_register.hpp:37-39
  | .reset x => do
    let l ← h.loc x
    let r ← h.load l
    h.store l (resetRegister r)
  -- /repo/include/scaluq/classical_register/classical_register_batched.hpp:40-43, 99-110
  | .setB X b i v => do
    let (k, B) ← h.batch X
    let r ← B.at b
    let r' ← setRegister r i v
    h.store (.slot k b) r'
  -- /repo/include/scaluq/classical_register/classical_register_batched.hpp:48-50
  | .resetB X => do
    let (k, B) ← h.batch X
    .ok { h with objs := h.objs.set k (.batch B.reset) }
  -- /repo/include/scaluq/classical_register/classical_register_batched.hpp:74-87
  | .assign X b y => do
    let l ← h.loc y
    let r ← h.load l
    let (_, B) ← h.batch X
    if r.length ≠ B.size then .error (.throw "__setitem__ expects a ClassicalRegister with matching register_size")
    else h.assignSlot X b r

/-- a program whose exceptions are caught; undefined behaviour ends it -/
def RegHeap.run (h : RegHeap) : List RegCmd → Res RegHeap
  | [] => .ok h
  | c :: cs => match h.step c with
    | .ok h' => h'.run cs
    | .error (.throw _) => h.run cs
    | .error (.ub e) => .error (.ub e)

/-! ## observers -/

/-- `x[i]` (/repo/include/scaluq/classical_register/classical_register.hpp:27-33, 52-58) -/
def RegHeap.get (h : RegHeap) (x : String) (i : Nat) : Res Bool := do
  let l ← h.loc x
  let r ← h.load l
  readRegister r i

/-- `x.register_size()`, `len(x)` (/repo/include/scaluq/classical_register/classical_register.hpp:34) -/
def RegHeap.sizeOf (h : RegHeap) (x : String) : Res Nat := do
  let l ← h.loc x
  let r ← h.load l
  .ok r.length

/-- `x.empty()` (/repo/include/scaluq/classical_register/classical_register.hpp:35) -/
def RegHeap.isEmpty (h : RegHeap) (x : String) : Res Bool := do
  let l ← h.loc x
  let r ← h.load l
  .ok r.isEmpty

/-- `X[b, i]`, in C++ `X(b, i)` (/repo/include/scaluq/classical_register/classical_register_batched.hpp:44-46, 88-98) -/
def RegHeap.getB (h : RegHeap) (X : String) (b i : Nat) : Res Bool := do
  let (_, B) ← h.batch X
  let r ← B.at b
  readRegister r i

/-- `X.register_size()` (/repo/include/scaluq/classical_register/classical_register_batched.hpp:24): the stored number -/
def RegHeap.sizeB (h : RegHeap) (X : String) : Res Nat := do
  let (_, B) ← h.batch X
  .ok B.size

/-- `X.batch_size()`, `len(X)` (/repo/include/scaluq/classical_register/classical_register_batched.hpp:25) -/
def RegHeap.batchB (h : RegHeap) (X : String) : Res Nat := do
  let (_, B) ← h.batch X
  .ok B.regs.length

end Verif.Model
