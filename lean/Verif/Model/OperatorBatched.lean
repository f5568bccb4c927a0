import Verif.Model.Operator
import Verif.Core.Shared

/-!
# Batched operators

Model of /repo/src/operator/operator_batched.cpp and /repo/include/scaluq/operator/operator_batched.hpp.  The terms of
all slots are in one array `_ops`; slot `b` is the range `_row_ptr(b) .. _row_ptr(b + 1)`.  The kernels of the arithmetic
read and write several arrays; an address is a pair (number of the array, index).  Sizes and row pointers are natural
numbers (an allocation cannot hold 2^64 terms).  The two nested loops of one team are run without any order between them.
-/

namespace Verif.Model
open Verif

/-- /repo/include/scaluq/operator/operator_batched.hpp:138-139. -/
structure OpB where
  rowPtr : List Nat
  ops : List PauliOp

/-- `_row_ptr.extent(0) - 1` (operator_batched.hpp:64) -/
def OpB.batchSize (o : OpB) : Nat := o.rowPtr.length - 1

/-- `_row_ptr(b)` -/
def OpB.first (o : OpB) (b : Fin o.batchSize) : Nat :=
  o.rowPtr[b.val]'(by have := b.isLt; unfold OpB.batchSize at this; omega)

/-- `_row_ptr(b + 1)` -/
def OpB.last (o : OpB) (b : Fin o.batchSize) : Nat :=
  o.rowPtr[b.val + 1]'(by have := b.isLt; unfold OpB.batchSize at this; omega)

/-- the loop `row_ptr_h.push_back(row_ptr_h.back() + size)` starting from `{0}` -/
def rowPtrOf (sizes : List Nat) : List Nat := sizes.scanl (· + ·) 0

/-- operator_batched.hpp:22-38, constructor from lists of terms. -/
def OpB.ofLists (l : List (List PauliOp)) : OpB := ⟨rowPtrOf (l.map List.length), l.flatten⟩

/-- operator_batched.hpp:39-57, constructor from operators. -/
def OpB.ofOps (l : List Op) : OpB := ⟨rowPtrOf (l.map fun o => o.terms.length), (l.map Op.terms).flatten⟩

/-- /repo/src/operator/operator_batched.cpp:8-19 `copy`. -/
def OpB.copy (o : OpB) : OpB := ⟨o.rowPtr, o.ops⟩

/-- /repo/src/operator/operator_batched.cpp:21-38 `load`: `Kokkos::deep_copy` into the existing `_row_ptr` throws when the
extents differ. -/
def OpB.load (o : OpB) (l : List (List PauliOp)) : Res OpB :=
  if (rowPtrOf (l.map List.length)).length ≠ o.rowPtr.length then .error (.throw "Deprecation: deep_copy extents of views don't match")
  else .ok (OpB.ofLists l)

/-- `Kokkos::subview(_ops, make_pair(begin, end))`; a range outside the array is undefined behaviour. -/
def subview (ops : List PauliOp) (b e : Nat) : Res (List PauliOp) :=
  if b ≤ e ∧ e ≤ ops.length then .ok ((ops.drop b).take (e - b)) else .error (.ub "subview out of range")

/-- /repo/src/operator/operator_batched.cpp:350-362 `view_operator_at`; `_is_hermitian` keeps its default value `true`. -/
def OpB.viewOperatorAt (o : OpB) (index : Nat) : Res Op :=
  if h : index < o.batchSize then do
    let ts ← subview o.ops (o.first ⟨index, h⟩) (o.last ⟨index, h⟩)
    pure ⟨ts, true, true⟩
  else .error (.throw "OperatorBatched::view_operator_at: index out of range")

/-- /repo/src/operator/operator_batched.cpp:364-376 `get_operator_at`; `_is_hermitian` keeps its default value `true`. -/
def OpB.getOperatorAt (o : OpB) (index : Nat) : Res Op :=
  if h : index < o.batchSize then do
    let ts ← subview o.ops (o.first ⟨index, h⟩) (o.last ⟨index, h⟩)
    pure ⟨ts, true, false⟩
  else .error (.throw "OperatorBatched::get_operator_at: index out of range")

/-- /repo/src/operator/operator_batched.cpp:378-386 `get_operators`. -/
def OpB.getOperators (o : OpB) : Res (List Op) := (List.range o.batchSize).mapM o.getOperatorAt

/-! ## kernels on several arrays -/

/-- /repo/src/operator/operator_batched.cpp:460-463, 500-503: the check of `operator+` and `operator*`. -/
def OpB.binaryCheck (o t : OpB) : Res Unit :=
  if o.rowPtr.length ≠ t.rowPtr.length then
    .error (.throw "OperatorBatched::operator+: batch size of both operators must be same")
  else .ok ()

/-- the check of `operator+`, `operator*` and `operator*=` with a vector of Pauli operators (operator_batched.cpp:542-545,
582-585, 603-606) -/
def OpB.paulisCheck (o : OpB) (ps : List PauliOp) : Res Unit :=
  if o.rowPtr.length ≠ ps.length then
    .error (.throw "OperatorBatched::operator+: batch size of both operators must be same")
  else .ok ()

/-- an array as memory (contents outside are never reached by an execution that stays in range) -/
noncomputable def cells (l : List PauliOp) (i : Nat) : PauliOp := if h : i < l.length then l[i] else ⟨0, 0, 0⟩

/-- array 0 is `_ops`, array 1 the second argument, array 2 the result -/
noncomputable def mem3 (a b r : List PauliOp) : Nat × Nat → PauliOp := fun p =>
  if p.1 = 0 then cells a p.2 else if p.1 = 1 then cells b p.2 else if p.1 = 2 then cells r p.2 else ⟨0, 0, 0⟩

/-- index inside the array -/
def InArrays (a b r : Nat) (p : Nat × Nat) : Prop :=
  (p.1 = 0 ∧ p.2 < a) ∨ (p.1 = 1 ∧ p.2 < b) ∨ (p.1 = 2 ∧ p.2 < r)

/-- The kernel `pool` on `_ops = a` and argument `b` fills the uninitialised result array (whatever it held) with `r` under
every schedule. -/
def Fills {ι : Type} [DecidableEq ι] (pool : Pool ι (Nat × Nat) PauliOp) (a b r : List PauliOp) : Prop :=
  ∀ junk : List PauliOp, junk.length = r.length →
    Runs (InArrays a.length b.length r.length) pool (mem3 a b junk) (mem3 a b r)

/-- the same slot of an object with a row pointer of the same size -/
def OpB.slotIn {o t : OpB} (h : o.rowPtr.length = t.rowPtr.length) (b : Fin o.batchSize) : Fin t.batchSize :=
  ⟨b.val, by have := b.isLt; unfold OpB.batchSize at *; omega⟩

/-- /repo/src/operator/operator_batched.cpp:476-495, the kernel of `operator+(OperatorBatched)`. -/
noncomputable def OpB.addPool (o t : OpB) (h : o.rowPtr.length = t.rowPtr.length) (rowPtr : List Nat)
    (hr : rowPtr.length = o.rowPtr.length) :
    Pool ((b : Fin o.batchSize) × (Fin (o.last b - o.first b) ⊕
      Fin (t.last (OpB.slotIn h b) - t.first (OpB.slotIn h b))))
      (Nat × Nat) PauliOp := fun w =>
  let b := w.1
  let bt : Fin t.batchSize := OpB.slotIn h b
  let beginRes := rowPtr[b.val]'(by have := b.isLt; unfold OpB.batchSize at this; omega)
  match w.2 with
  | .inl i => do
    let p ← Prog.load (0, o.first b + i.val)
    Prog.store (2, beginRes + i.val) p
  | .inr i => do
    let p ← Prog.load (1, t.first bt + i.val)
    Prog.store (2, beginRes + (o.last b - o.first b) + i.val) p

/-- the sizes pushed in operator_batched.cpp:468-471: per slot the sum of the two sizes -/
def OpB.addSizes (o t : OpB) (h : o.rowPtr.length = t.rowPtr.length) : List Nat :=
  List.ofFn fun b : Fin o.batchSize => (o.last b - o.first b) +
    (t.last (OpB.slotIn h b) - t.first (OpB.slotIn h b))

theorem OpB.length_addRow (o t : OpB) (h : o.rowPtr.length = t.rowPtr.length) (ho : 0 < o.rowPtr.length) :
    (rowPtrOf (o.addSizes t h)).length = o.rowPtr.length := by
  simp [rowPtrOf, OpB.addSizes, OpB.batchSize]; omega

/-- /repo/src/operator/operator_batched.cpp:459-497 `operator+(OperatorBatched)` returns `r`. -/
def OpB.Adds (o t r : OpB) : Prop :=
  o.binaryCheck t = .ok () ∧ ∃ (h : o.rowPtr.length = t.rowPtr.length) (ho : 0 < o.rowPtr.length),
    r.rowPtr = rowPtrOf (o.addSizes t h) ∧ some r.ops.length = r.rowPtr.getLast? ∧
    Fills (o.addPool t h (rowPtrOf (o.addSizes t h)) (o.length_addRow t h ho)) o.ops t.ops r.ops

/-- the sizes pushed in operator_batched.cpp:508-511: per slot the product of the two sizes -/
def OpB.mulSizes (o t : OpB) (h : o.rowPtr.length = t.rowPtr.length) : List Nat :=
  List.ofFn fun b : Fin o.batchSize => (o.last b - o.first b) *
    (t.last (OpB.slotIn h b) - t.first (OpB.slotIn h b))

theorem OpB.length_mulRow (o t : OpB) (h : o.rowPtr.length = t.rowPtr.length) (ho : 0 < o.rowPtr.length) :
    (rowPtrOf (o.mulSizes t h)).length = o.rowPtr.length := by
  simp [rowPtrOf, OpB.mulSizes, OpB.batchSize]; omega

/-- /repo/src/operator/operator_batched.cpp:516-535, the kernel of `operator*(OperatorBatched)`.  The division is by
`end2 - begin2`, which is not zero when there is a work item. -/
noncomputable def OpB.mulPool (o t : OpB) (h : o.rowPtr.length = t.rowPtr.length) (rowPtr : List Nat)
    (hr : rowPtr.length = o.rowPtr.length) :
    Pool ((b : Fin o.batchSize) × Fin ((o.last b - o.first b) *
      (t.last (OpB.slotIn h b) - t.first (OpB.slotIn h b))))
      (Nat × Nat) PauliOp := fun w =>
  let b := w.1
  let bt : Fin t.batchSize := OpB.slotIn h b
  let beginRes := rowPtr[b.val]'(by have := b.isLt; unfold OpB.batchSize at this; omega)
  let i := w.2.val
  do
    let p ← Prog.load (0, o.first b + i / (t.last bt - t.first bt))
    let q ← Prog.load (1, t.first bt + i % (t.last bt - t.first bt))
    Prog.store (2, beginRes + i) (p.mul q)

/-- /repo/src/operator/operator_batched.cpp:499-537 `operator*(OperatorBatched)` returns `r`. -/
def OpB.Muls (o t r : OpB) : Prop :=
  o.binaryCheck t = .ok () ∧ ∃ (h : o.rowPtr.length = t.rowPtr.length) (ho : 0 < o.rowPtr.length),
    r.rowPtr = rowPtrOf (o.mulSizes t h) ∧ some r.ops.length = r.rowPtr.getLast? ∧
    Fills (o.mulPool t h (rowPtrOf (o.mulSizes t h)) (o.length_mulRow t h ho)) o.ops t.ops r.ops

/-- /repo/src/operator/operator_batched.cpp:338-348 `get_dagger` (work item `i` reads and writes `_ops[i]` only). -/
noncomputable def OpB.dagger (o : OpB) : OpB := ⟨o.rowPtr, o.ops.map PauliOp.dagger⟩

/-- operator_batched.hpp:100-107 unary `operator-`. -/
noncomputable def OpB.neg (o : OpB) : OpB := ⟨o.rowPtr, o.ops.map fun p => p.scale (-1)⟩

/-- `_ops[i] *= coef_view[i]` (operator_batched.cpp:439, 455) -/
noncomputable def scaleItem (coefs : List ℂ) (w : PauliOp × Nat) : Res PauliOp :=
  match coefs[w.2]? with
  | some c => .ok (w.1.scale c)
  | none => .error (.ub "coef_view[i] out of range")

/-- /repo/src/operator/operator_batched.cpp:425-441 `operator*(coefs)` and 443-457 `operator*=(coefs)`: term `i` of the array
is multiplied by `coef_view[i]`; reading outside the view is undefined behaviour. -/
noncomputable def OpB.scale (o : OpB) (coefs : List ℂ) : Res OpB :=
  if coefs.length ≠ o.batchSize then
    .error (.throw "OperatorBatched::operator*: size of coef must be equal to batch size")
  else do
    let ops ← (o.ops.zipIdx).mapM (scaleItem coefs)
    pure ⟨o.rowPtr, ops⟩

/-! ## with one Pauli operator per slot -/

/-- the sizes pushed in operator_batched.cpp:547-550 -/
def OpB.addPauliSizes (o : OpB) : List Nat := List.ofFn fun b : Fin o.batchSize => (o.last b - o.first b) + 1

theorem OpB.length_addPauliRow (o : OpB) (ho : 0 < o.rowPtr.length) :
    (rowPtrOf o.addPauliSizes).length = o.rowPtr.length := by
  simp [rowPtrOf, OpB.addPauliSizes, OpB.batchSize]; omega

/-- /repo/src/operator/operator_batched.cpp:556-575, the kernel of `operator+(vector<PauliOperator>)`; the vector is array 1. -/
noncomputable def OpB.addPauliPool (o : OpB) (rowPtr : List Nat) (hr : rowPtr.length = o.rowPtr.length) :
    Pool ((b : Fin o.batchSize) × Fin (o.last b - o.first b + 1)) (Nat × Nat) PauliOp := fun w =>
  let b := w.1
  let i := w.2.val
  let beginRes := rowPtr[b.val]'(by have := b.isLt; unfold OpB.batchSize at this; omega)
  do
    let p ← if i < o.last b - o.first b then Prog.load (0, o.first b + i) else Prog.load (1, b.val)
    Prog.store (2, beginRes + i) p

/-- /repo/src/operator/operator_batched.cpp:539-577 `operator+(vector<PauliOperator>)` returns `r`. -/
def OpB.AddsPaulis (o : OpB) (ps : List PauliOp) (r : OpB) : Prop :=
  o.paulisCheck ps = .ok () ∧ ∃ ho : 0 < o.rowPtr.length,
    r.rowPtr = rowPtrOf o.addPauliSizes ∧ some r.ops.length = r.rowPtr.getLast? ∧
    Fills (o.addPauliPool (rowPtrOf o.addPauliSizes) (o.length_addPauliRow ho)) o.ops ps r.ops

/-- /repo/src/operator/operator_batched.cpp:586-597, the kernel of `operator*(vector<PauliOperator>)`; the result starts as a
copy of `_ops`. -/
noncomputable def OpB.mulPauliPool (o : OpB) :
    Pool ((b : Fin o.batchSize) × Fin (o.last b - o.first b + 1)) (Nat × Nat) PauliOp := fun w =>
  let b := w.1
  let i := w.2.val
  do
    let p ← Prog.load (0, o.first b + i)
    let q ← Prog.load (1, b.val)
    Prog.store (2, o.first b + i) (p.mul q)

/-- /repo/src/operator/operator_batched.cpp:607-616, the kernel of `operator*=(vector<PauliOperator>)`. -/
noncomputable def OpB.mulPauliAssignPool (o : OpB) :
    Pool ((b : Fin o.batchSize) × Fin (o.last b - o.first b + 1)) (Nat × Nat) PauliOp := fun w =>
  let b := w.1
  let i := w.2.val
  do
    let p ← Prog.load (0, o.first b + i)
    let q ← Prog.load (1, b.val)
    Prog.store (0, o.first b + i) (p.mul q)

/-- `operator*(vector<PauliOperator>)` returns `r` (operator_batched.cpp:579-598) -/
def OpB.MulsPaulis (o : OpB) (ps : List PauliOp) (r : OpB) : Prop :=
  o.paulisCheck ps = .ok () ∧ r.rowPtr = o.rowPtr ∧ r.ops.length = o.ops.length ∧
    Runs (InArrays o.ops.length ps.length o.ops.length) o.mulPauliPool (mem3 o.ops ps o.ops) (mem3 o.ops ps r.ops)

/-- `operator*=(vector<PauliOperator>)` leaves `r` (operator_batched.cpp:600-617) -/
def OpB.MulsPaulisAssign (o : OpB) (ps : List PauliOp) (r : OpB) : Prop :=
  o.paulisCheck ps = .ok () ∧ r.rowPtr = o.rowPtr ∧ r.ops.length = o.ops.length ∧
    Runs (InArrays o.ops.length ps.length 0) o.mulPauliAssignPool (mem3 o.ops ps []) (mem3 r.ops ps [])

/-! ## values -/

/-- /repo/src/operator/operator_batched.cpp:71-122 `get_expectation_value` (single state). -/
noncomputable def OpB.expectation (o : OpB) (dim : Nat) (ψ : U64 → ℂ) : Res (List ℂ) :=
  (List.finRange o.batchSize).mapM fun b => do
    let ts ← subview o.ops (o.first b) (o.last b)
    reducePairs (termRange ts (dim >>> 1)) (transItem dim ψ ψ)

/-- /repo/src/operator/operator_batched.cpp:124-192 `get_expectation_value` (batch of states). -/
noncomputable def OpB.expectationBatched (o : OpB) (s : Batch) : Res (List ℂ) :=
  if o.batchSize ≠ s.size then
    .error (.throw "Operator::get_expectation_value: batch_size of OperatorBatched and StateVectorBatched must be same")
  else (List.finRange o.batchSize).mapM fun b => do
    let ts ← subview o.ops (o.first b) (o.last b)
    reducePairs (termRange ts (2 ^ s.n >>> 1)) (transItem (2 ^ s.n) (s.raw b.val) (s.raw b.val))

/-- /repo/src/operator/operator_batched.cpp:194-260 `get_transition_amplitude` (single states). -/
noncomputable def OpB.transition (o : OpB) (n n' : Nat) (bra ket : U64 → ℂ) : Res (List ℂ) :=
  if n ≠ n' then
    .error (.throw "Operator::get_transition_amplitude: n_qubits of state_vector_bra and state_vector_ket must be same")
  else (List.finRange o.batchSize).mapM fun b => do
    let ts ← subview o.ops (o.first b) (o.last b)
    reducePairs (termRange ts (2 ^ n >>> 1)) (transItem (2 ^ n) bra ket)

/-- /repo/src/operator/operator_batched.cpp:261-337 `get_transition_amplitude` (batches). -/
noncomputable def OpB.transitionBatched (o : OpB) (bra ket : Batch) : Res (List ℂ) :=
  if bra.n ≠ ket.n then
    .error (.throw "Operator::get_transition_amplitude: n_qubits of states_bra and states_ket must be same")
  else if bra.size ≠ ket.size then
    .error (.throw "Operator::get_transition_amplitude: batch_size of states_bra and states_ket must be same")
  else if o.batchSize ≠ bra.size then
    .error (.throw "Operator::get_transition_amplitude: batch_size of OperatorBatched and StateVectorBatched must be same")
  else (List.finRange o.batchSize).mapM fun b => do
    let ts ← subview o.ops (o.first b) (o.last b)
    reducePairs (termRange ts (2 ^ bra.n >>> 1)) (transItem (2 ^ bra.n) (bra.raw b.val) (ket.raw b.val))

end Verif.Model
