import Verif.Model.Gate1

/-!
# Dense and sparse matrix gates

Model of `multi_dense_matrix_gate`, `sparse_matrix_gate` (/repo/src/gate/update_ops_matrix.cpp), of
`DenseMatrixGateImpl`, `SparseMatrixGateImpl` (/repo/src/gate/gate_matrix.cpp) and of the factories
`gate::DenseMatrix`, `gate::SparseMatrix` (/repo/include/scaluq/gate/gate_factory.hpp:336-389).
-/

namespace Verif.Model
open Verif
open Verif.Prog (load store)
variable {R : Type}

/-- `ComplexMatrix` (Eigen): number of rows and columns, and the entry at (row, column) for row and column inside
these bounds. -/
structure DMat (R : Type) where
  rows : Nat
  cols : Nat
  entry : Nat → Nat → R

/-- The summation loop of a matrix kernel: `inner_sum += coef * state.at_unsafe(address)`
(/repo/src/gate/update_ops_matrix.cpp:249-257, 303-313).  The nested `parallel_reduce` over a `ThreadVectorRange`
only reads; with exact arithmetic its value does not depend on the order, it is modelled as a sequential loop. -/
def accumulate {A : Type} [Add R] [Mul R] : List (R × A) → R → Prog A R R
  | [], acc => .pure acc
  | (z, a) :: l, acc => do
    let x ← load a
    accumulate l (acc + z * x)

/-- /repo/src/gate/update_ops_matrix.cpp:224-233 (and 280-289, the same text): initialisation of the new state;
addresses `(true, i)` are `update`, `(false, i)` are `state`. -/
def outOfPlaceInit [Zero R] (c v : U64) (dim : Nat) : Pool (Fin dim) (Bool × U64) R :=
  parallelFor _ fun i => do
    if i &&& c = v then store (true, i) 0
    else
      let x ← load (false, i)
      store (true, i) x

/-- /repo/src/gate/update_ops_matrix.cpp:235 (and 291): `~target_mask & ((1ULL << n_qubits) - 1)`. -/
def outerMask (t : U64) (n : Nat) : U64 := ~~~t &&& ((1#64 <<< n) - 1)

/-- /repo/src/gate/update_ops_matrix.cpp:236-260 and 292-317, the update kernel: team `league_rank`, row `r`.
`rows r` lists the (coefficient, column) pairs summed for row `r`. -/
def outOfPlaceUpdate [Zero R] [Add R] [Mul R] (n : Nat) (t c v : U64) (nRows : Nat)
    (rows : Fin nRows → List (R × Nat)) (dim : Nat) : Pool (Fin (workItems dim (t ||| c)) × Fin nRows) (Bool × U64) R :=
  fun (rank, r) => do
    let basis := insertZero (BitVec.ofNat 64 rank.val) (t ||| c) ||| v
    let dst := insertZero (BitVec.ofNat 64 r.val) (outerMask t n) ||| basis
    let sum ← accumulate ((rows r).map fun (z, col) =>
      (z, (false, insertZero (BitVec.ofNat 64 col) (outerMask t n) ||| basis))) 0
    store (true, dst) sum

/-- /repo/src/gate/update_ops_matrix.cpp:208-263 `multi_dense_matrix_gate`; `M r c` is `matrix(r, c)`,
`matrix_dim = 1ULL << popcount(target_mask)`. -/
def multiDense [Zero R] [Add R] [Mul R] (n : Nat) (t c v : U64) (M : Nat → Nat → R) (dim : Nat) : Device R :=
  let matrixDim := 2 ^ popcount t
  .outOfPlace dim _ matrixDim (outOfPlaceInit c v dim)
    (outOfPlaceUpdate n t c v matrixDim (fun r => (List.range matrixDim).map fun s => (M r.val s, s)) dim)

/-- `SparseMatrix<Prec, Space>` (/repo/include/scaluq/types.hpp:65-75): compressed row storage.  The `uint32_t`
index arrays are natural numbers. -/
structure Csr (R : Type) where
  vals : List R
  colIdx : List Nat
  rowPtr : List Nat
  rows : Nat
  cols : Nat

/-- array element; a subscript past the end is undefined behaviour -/
def elemAt {α : Type} (l : List α) (i : Nat) : Res α :=
  match l[i]? with
  | some x => .ok x
  | none => .error (.ub "subscript out of range")

/-- The (coefficient, column) pairs of row `r`: `idx` from `_row_ptr[r]` to `_row_ptr[r + 1]`
(/repo/src/gate/update_ops_matrix.cpp:305-311). -/
def Csr.row (m : Csr R) (r : Nat) : Res (List (R × Nat)) := do
  let lo ← elemAt m.rowPtr r
  let hi ← elemAt m.rowPtr (r + 1)
  (List.range' lo (hi - lo)).mapM fun idx => do
    let c ← elemAt m.colIdx idx
    let x ← elemAt m.vals idx
    pure (x, c)

/-- /repo/src/gate/update_ops_matrix.cpp:265-320 `sparse_matrix_gate`. -/
def sparseKernel [Zero R] [Add R] [Mul R] (n : Nat) (t c v : U64) (m : Csr R) (dim : Nat) : Res (Device R) := do
  let rows ← (List.range m.rows).mapM m.row
  pure (.outOfPlace dim _ rows.length (outOfPlaceInit c v dim)
    (outOfPlaceUpdate n t c v rows.length (fun r => rows[r.val]) dim))

/-- A compressed row-major `SparseComplexMatrix` (Eigen): for every row the stored (column, value) pairs. -/
structure SMat (R : Type) where
  cols : Nat
  stored : List (List (Nat × R))

/-- `outerIndexPtr()` of a compressed matrix: start of every row, and the number of stored entries. -/
def outerIndex {α : Type} : Nat → List (List α) → List Nat
  | s, [] => [s]
  | s, r :: rs => s :: outerIndex (s + r.length) rs

/-- /repo/src/types.cpp:7-22 `SparseMatrix(const SparseComplexMatrix&)`: `valuePtr`, `innerIndexPtr`,
`outerIndexPtr` are copied.  (The Eigen matrix must be compressed; conversion to `uint32_t` is not modelled.) -/
def Csr.ofSMat (m : SMat R) : Csr R :=
  { vals := m.stored.flatten.map Prod.snd
    colIdx := m.stored.flatten.map Prod.fst
    rowPtr := outerIndex 0 m.stored
    rows := m.stored.length
    cols := m.cols }

/-- /repo/src/gate/gate_matrix.cpp:6-37 and 103-146: the constructor picks the representation from the size of
the matrix, `update_quantum_state` checks the bounds and calls the kernel for it.  Reading `matrix(r, c)` outside
the matrix in the last case is undefined behaviour. -/
noncomputable def denseUpdate (L B n : Nat) (M : DMat ℂ) (o : Operands) : Res (Device ℂ) := do
  checkWithinBounds o n
  if M.rows = 1 ∧ M.cols = 1 then
    pure (zeroTarget L n o.c o.v (M.entry 0 0) (B * 2 ^ n))
  else if M.rows = 2 ∧ M.cols = 2 then
    pure (dense1 L n o.t o.c o.v ⟨M.entry 0 0, M.entry 0 1, M.entry 1 0, M.entry 1 1⟩ (B * 2 ^ n))
  else if M.rows = 4 ∧ M.cols = 4 then
    pure (.par _ (dense2 o.t o.c o.v (fun i j => M.entry i j) (B * 2 ^ n)))
  else if 2 ^ popcount o.t ≤ M.rows ∧ 2 ^ popcount o.t ≤ M.cols then
    pure (multiDense n o.t o.c o.v M.entry (B * 2 ^ n))
  else .error (.ub "matrix(r, c) out of range")

/-- /repo/src/gate/gate_matrix.cpp:205-222. -/
def sparseUpdate (B n : Nat) (m : Csr ℂ) (o : Operands) : Res (Device ℂ) := do
  checkWithinBounds o n
  sparseKernel n o.t o.c o.v m (B * 2 ^ n)

/-- /repo/include/scaluq/util/utility.hpp:191-208: for every position in `targets` its position in the sorted
list (`std::lower_bound` = the first element not less than it). -/
def targetsOrder (targets : List Nat) : List Nat :=
  let sorted := targets.mergeSort (fun a b => decide (a ≤ b))
  targets.map fun x => sorted.findIdx (fun y => decide (¬ y < x))

/-- /repo/include/scaluq/util/utility.hpp:205-210: bit `j` of `transformed[index]` is bit `targets_order[j]` of
`index` (loop counter `j` starts at `j0`). -/
def transformIndex (index : Nat) : List Nat → Nat → Nat → Nat
  | [], _, acc => acc
  | o :: os, j0, acc => transformIndex index os (j0 + 1) (acc ||| (((index >>> o) &&& 1) <<< j0))

/-- /repo/include/scaluq/util/utility.hpp:190-222 `transform_dense_matrix_by_order`; reading `mat(row_src, col_src)`
outside the matrix is undefined behaviour. -/
def transformByOrder (M : DMat R) (targets : List Nat) : Res (DMat R) :=
  let tr := fun i => transformIndex i (targetsOrder targets) 0 0
  if (List.range M.rows).all (fun i => decide (tr i < M.rows ∧ tr i < M.cols)) then
    .ok { rows := M.rows, cols := M.rows, entry := fun i j => M.entry (tr i) (tr j) }
  else .error (.ub "mat(row_src, col_src) out of range")

/-- `std::is_sorted` -/
def isSorted : List Nat → Bool
  | a :: b :: l => decide (a ≤ b) && isSorted (b :: l)
  | _ => true

/-- A dense matrix gate object: the stored matrix, `_is_unitary` and the operand masks. -/
structure DenseGate where
  mat : DMat ℂ
  isUnitary : Bool
  o : Operands

/-- /repo/include/scaluq/gate/gate_factory.hpp:336-367 `gate::DenseMatrix`. -/
noncomputable def mkDense (targets : List Nat) (matrix : DMat ℂ) (controls values : List Nat) (isUnitary : Bool) :
    Res DenseGate := do
  let _ ← resizeAndCheckControlValues controls values
  let dim ← shl1 targets.length
  if matrix.rows ≠ dim.toNat ∨ matrix.cols ≠ dim.toNat then
    .error (.throw "gate::DenseMatrix: matrix size must be 2^{n_qubits} x 2^{n_qubits}.")
  else if isSorted targets then do
    let o ← mkOperands targets controls values
    pure ⟨matrix, isUnitary, o⟩
  else do
    let m ← transformByOrder matrix targets
    let o ← mkOperands targets controls values
    pure ⟨m, isUnitary, o⟩

/-- `SparseComplexMatrix::toDense()`: the stored value of the entry, or zero (columns in a row are distinct). -/
def SMat.toDense [Zero R] (m : SMat R) : DMat R :=
  { rows := m.stored.length
    cols := m.cols
    entry := fun i j => match m.stored[i]? with
      | none => 0
      | some row => match row.find? (fun p => decide (p.1 = j)) with
        | none => 0
        | some p => p.2 }

open Classical in
/-- `ComplexMatrix::sparseView()`: the nonzero entries, row by row.  (Eigen drops entries below an epsilon times a
reference value of 0, i.e. exactly the zeros.) -/
noncomputable def DMat.sparseView [Zero R] (M : DMat R) : SMat R :=
  { cols := M.cols
    stored := (List.range M.rows).map fun i => (List.range M.cols).filterMap fun j =>
      if M.entry i j = 0 then none else some (j, M.entry i j) }

/-- A sparse matrix gate object. -/
structure SparseGate where
  mat : Csr ℂ
  o : Operands

/-- /repo/include/scaluq/gate/gate_factory.hpp:368-389 `gate::SparseMatrix`; it does not check the size of the
matrix. -/
noncomputable def mkSparse (targets : List Nat) (matrix : SMat ℂ) (controls values : List Nat) : Res SparseGate := do
  let _ ← resizeAndCheckControlValues controls values
  if isSorted targets then do
    let o ← mkOperands targets controls values
    pure ⟨.ofSMat matrix, o⟩
  else do
    let m ← transformByOrder matrix.toDense targets
    let o ← mkOperands targets controls values
    pure ⟨.ofSMat m.sparseView, o⟩

end Verif.Model
