import Verif.Model.OperatorBatched
import Verif.Spec.OpSharing

/-!
# Operator objects as handles of memory

Model of the memory management of /repo/src/operator/operator.cpp and /repo/src/operator/operator_batched.cpp: a `Kokkos::View` is a place
in an allocation; copying a view copies the place.  What the operations compute is taken from `Model/Operator` and
`Model/OperatorBatched`; here their arguments are read from memory and their results are put into memory.  Allocations are never
released (reference counts keep whatever can be reached) and memory does not run out.
-/

namespace Verif.Model
open Verif Verif.Spec

/-- `next` arrays of terms and `nextRow` arrays of row pointers have been allocated -/
structure OHeap where
  next : Nat
  term : Nat × Nat → PauliOp
  nextRow : Nat
  row : Nat → List Nat

/-- an `Operator` (/repo/include/scaluq/operator/operator.hpp:117-119): the place and extent of `_terms`, and the two flags -/
structure HOp where
  buf : Nat
  off : Nat
  len : Nat
  hermitian : Bool
  isView : Bool

/-- an `OperatorBatched` (/repo/include/scaluq/operator/operator_batched.hpp:138-139): the place of `_ops`, its extent, and the place
of `_row_ptr` -/
structure HBat where
  buf : Nat
  len : Nat
  rowBuf : Nat

/-- the objects of a program -/
structure OWorld where
  heap : OHeap
  op : String → Option HOp
  bat : String → Option HBat

/-- no objects -/
def OWorld.empty : OWorld := ⟨⟨0, fun _ => ⟨0, 0, 0⟩, 0, fun _ => []⟩, fun _ => none, fun _ => none⟩

/-- /repo/include/scaluq/operator/operator.hpp:39-41 `get_terms` -/
def HOp.terms (h : OHeap) (o : HOp) : List PauliOp := (List.range o.len).map fun i => h.term (o.buf, o.off + i)

/-- the operator that the handle shows -/
def HOp.value (h : OHeap) (o : HOp) : Op := ⟨o.terms h, o.hermitian, o.isView⟩

/-- the batch that the handle shows -/
def HBat.value (h : OHeap) (X : HBat) : OpB := ⟨h.row X.rowBuf, (List.range X.len).map fun i => h.term (X.buf, i)⟩

/-- a new array of terms -/
def OHeap.alloc (h : OHeap) (ts : List PauliOp) : OHeap :=
  { h with
    next := h.next + 1
    term := fun a => if a.1 = h.next then (if hi : a.2 < ts.length then ts[a.2] else h.term a) else h.term a }

/-- a new array of row pointers -/
def OHeap.allocRow (h : OHeap) (r : List Nat) : OHeap := { h with nextRow := h.nextRow + 1, row := Function.update h.row h.nextRow r }

/-- the elements of `_terms` become `ts` -/
def OHeap.store (h : OHeap) (o : HOp) (ts : List PauliOp) : OHeap :=
  { h with term := fun a =>
      if a.1 = o.buf ∧ o.off ≤ a.2 then (if hi : a.2 - o.off < ts.length then ts[a.2 - o.off] else h.term a) else h.term a }

/-- `x = ` a newly made operator -/
def OWorld.newOp (w : OWorld) (x : String) (o : Op) : OWorld :=
  { w with
    heap := w.heap.alloc o.terms
    op := Function.update w.op x (some ⟨w.heap.next, 0, o.terms.length, o.hermitian, o.isView⟩) }

/-- the operator `x` is changed in place into `v` -/
def OWorld.update (w : OWorld) (x : String) (o : HOp) (v : Op) : OWorld :=
  { w with
    heap := w.heap.store o v.terms
    op := Function.update w.op x (some { o with hermitian := v.hermitian, isView := v.isView }) }

/-- `X = ` a newly made batch -/
def OWorld.newBat (w : OWorld) (X : String) (v : OpB) : OWorld :=
  { w with
    heap := (w.heap.alloc v.ops).allocRow v.rowPtr
    bat := Function.update w.bat X (some ⟨w.heap.next, v.ops.length, w.heap.nextRow⟩) }

/-- `X.load(…)` (/repo/src/operator/operator_batched.cpp:21-38): `_row_ptr` is overwritten, `_ops` is a new array -/
def OWorld.reload (w : OWorld) (X : String) (H : HBat) (v : OpB) : OWorld :=
  { w with
    heap := { w.heap.alloc v.ops with row := Function.update w.heap.row H.rowBuf v.rowPtr }
    bat := Function.update w.bat X (some ⟨w.heap.next, v.ops.length, H.rowBuf⟩) }

/-- the outcome `r` of a computation without effects; then `k` -/
def OWorld.After {α : Type} (w : OWorld) (r : Res α) (k : α → OWorld) (w' : OWorld) (f : Option Fault) : Prop :=
  match r with
  | .error e => w' = w ∧ f = some e
  | .ok v => w' = k v ∧ f = none

/-- the handles of the operators `ys` -/
def OWorld.handles (w : OWorld) : List String → Option (List HOp)
  | [] => some []
  | y :: ys => match w.op y, w.handles ys with
    | some o, some l => some (o :: l)
    | _, _ => none

/-- one command.  Objects that do not exist have no behaviour (such a program would not compile).  `Operator` and `OperatorBatched` have
implicit copy operations, which copy the handle; `operator+()` returns `*this` (/repo/include/scaluq/operator/operator.hpp:82,
/repo/include/scaluq/operator/operator_batched.hpp:99). -/
def OWorld.Exec (w : OWorld) (c : OCmd) (w' : OWorld) (f : Option Fault) : Prop :=
  let h := w.heap
  match c with
  -- /repo/src/operator/operator.cpp:7-18
  | .new x ts => w' = w.newOp x (Op.ofTerms ts) ∧ f = none
  | .share x y => match w.op y with
    | none => False
    | some o => w' = { w with op := Function.update w.op x (some o) } ∧ f = none
  -- /repo/src/operator/operator.cpp:20-27
  | .copy x y => match w.op y with
    | none => False
    | some o => w' = w.newOp x (o.value h).copy ∧ f = none
  -- /repo/src/operator/operator.cpp:39-55: `Kokkos::deep_copy(_terms, host_view)`
  | .load x ts => match w.op x with
    | none => False
    | some o => w.After ((o.value h).load ts) (w.update x o) w' f
  -- /repo/src/operator/operator.cpp:57-75: `*this = Operator(terms_h)`
  | .optimize x => match w.op x with
    | none => False
    | some o => w.After (o.value h).optimize (w.newOp x) w' f
  -- /repo/src/operator/operator.cpp:557-566
  | .scaleAssign x a => match w.op x with
    | none => False
    | some o => w' = w.update x o ((o.value h).scaleAssign a) ∧ f = none
  -- /repo/src/operator/operator.cpp:595-604
  | .mulPauliAssign x p => match w.op x with
    | none => False
    | some o => w' = w.update x o ((o.value h).mulPauliAssign p) ∧ f = none
  -- /repo/src/operator/operator.cpp:77-89
  | .dagger x y => match w.op y with
    | none => False
    | some o => w' = w.newOp x (o.value h).dagger ∧ f = none
  -- /repo/src/operator/operator.cpp:568-572
  | .scale x y a => match w.op y with
    | none => False
    | some o => w' = w.newOp x ((o.value h).scale a) ∧ f = none
  -- /repo/src/operator/operator.cpp:606-610
  | .mulPauli x y p => match w.op y with
    | none => False
    | some o => w' = w.newOp x ((o.value h).mulPauli p) ∧ f = none
  -- /repo/src/operator/operator.cpp:633-650
  | .addPauli x y p => match w.op y with
    | none => False
    | some o => w' = w.newOp x ((o.value h).addPauli p) ∧ f = none
  -- /repo/src/operator/operator.cpp:612-631
  | .add x y z => match w.op y, w.op z with
    | some o, some t => w' = w.newOp x ((o.value h).add (t.value h)) ∧ f = none
    | _, _ => False
  -- /repo/include/scaluq/operator/operator.hpp:85
  | .sub x y z => match w.op y, w.op z with
    | some o, some t => w' = w.newOp x ((o.value h).sub (t.value h)) ∧ f = none
    | _, _ => False
  -- /repo/src/operator/operator.cpp:574-593
  | .mul x y z => match w.op y, w.op z with
    | some o, some t => w' = w.newOp x ((o.value h).mul (t.value h)) ∧ f = none
    | _, _ => False
  -- /repo/include/scaluq/operator/operator_batched.hpp:22-38
  | .newB X ls => w' = w.newBat X (OpB.ofLists ls) ∧ f = none
  -- /repo/include/scaluq/operator/operator_batched.hpp:39-57
  | .ofOps X ys => match w.handles ys with
    | none => False
    | some os => w' = w.newBat X (OpB.ofOps (os.map fun o => o.value h)) ∧ f = none
  | .shareB X Y => match w.bat Y with
    | none => False
    | some H => w' = { w with bat := Function.update w.bat X (some H) } ∧ f = none
  -- /repo/src/operator/operator_batched.cpp:8-19
  | .copyB X Y => match w.bat Y with
    | none => False
    | some H => w' = w.newBat X (H.value h).copy ∧ f = none
  -- /repo/src/operator/operator_batched.cpp:21-38
  | .loadB X ls => match w.bat X with
    | none => False
    | some H => w.After ((H.value h).load ls) (w.reload X H) w' f
  -- /repo/src/operator/operator_batched.cpp:339-348
  | .daggerB X Y => match w.bat Y with
    | none => False
    | some H => w' = w.newBat X (H.value h).dagger ∧ f = none
  -- /repo/include/scaluq/operator/operator_batched.hpp:100-107
  | .negB X Y => match w.bat Y with
    | none => False
    | some H => w' = w.newBat X (H.value h).neg ∧ f = none
  -- /repo/src/operator/operator_batched.cpp:459-497
  | .addB X Y Z => match w.bat Y, w.bat Z with
    | some H, some K => match (H.value h).binaryCheck (K.value h) with
      | .error e => w' = w ∧ f = some e
      | .ok _ => ∃ r, (H.value h).Adds (K.value h) r ∧ w' = w.newBat X r ∧ f = none
    | _, _ => False
  -- /repo/src/operator/operator_batched.cpp:499-537
  | .mulB X Y Z => match w.bat Y, w.bat Z with
    | some H, some K => match (H.value h).binaryCheck (K.value h) with
      | .error e => w' = w ∧ f = some e
      | .ok _ => ∃ r, (H.value h).Muls (K.value h) r ∧ w' = w.newBat X r ∧ f = none
    | _, _ => False
  -- /repo/src/operator/operator_batched.cpp:350-362: `Kokkos::subview(_ops, make_pair(_row_ptr(index), _row_ptr(index + 1)))`
  | .view x X i => match w.bat X with
    | none => False
    | some H =>
      if hi : i < (H.value h).batchSize then
        w.After (subview (H.value h).ops ((H.value h).first ⟨i, hi⟩) ((H.value h).last ⟨i, hi⟩))
          (fun ts => { w with op := Function.update w.op x (some ⟨H.buf, (H.value h).first ⟨i, hi⟩, ts.length, true, true⟩) }) w' f
      else w' = w ∧ f = some (.throw "OperatorBatched::view_operator_at: index out of range")
  -- /repo/src/operator/operator_batched.cpp:364-376
  | .getAt x X i => match w.bat X with
    | none => False
    | some H => w.After ((H.value h).getOperatorAt i) (w.newOp x) w' f

/-- a program; it stops at the first exception -/
inductive OWorld.Run : OWorld → List OCmd → OWorld → Option Fault → Prop
  | nil (w : OWorld) : Run w [] w none
  | cons (w w1 w2 : OWorld) (c : OCmd) (cs : List OCmd) (f : Option Fault) : w.Exec c w1 none → Run w1 cs w2 f → Run w (c :: cs) w2 f
  | stop (w w1 : OWorld) (c : OCmd) (cs : List OCmd) (e : Fault) : w.Exec c w1 (some e) → Run w (c :: cs) w1 (some e)

end Verif.Model
