import Verif.Model.MatrixStore
import Verif.Model.UGate

/-!
# How the matrix of a sparse gate is stored and read back

`SparseMatrix<Prec, Space>(const SparseComplexMatrix&)` (/repo/src/types.cpp:7-22), `get_matrix_internal` of a sparse gate
(/repo/src/gate/gate_matrix.cpp:175-190) and `gate::SparseMatrix` (/repo/include/scaluq/gate/gate_factory.hpp:368-389) for every matrix of Eigen's type,
compressed or not.  A `SparseComplexMatrix` keeps its elements row by row in two arrays (`valuePtr`, `innerIndexPtr`).  As long as it is not compressed (it was
filled by `insert` or `coeffRef` and `makeCompressed` was not called), every row may be followed by reserved slots that hold no element; `outerIndexPtr`
counts the slots, `nonZeros` the elements.  The elements are taken to be in the precision of the gate already (rounding: C100); conversion to `uint32_t` is
not modelled.
-/

namespace Verif.Model
open Verif
open Verif.Prog (store)

variable {R : Type}

/-- `SparseComplexMatrix` of Eigen: for every row its elements (column, value) and the contents of the reserved slots after them -/
structure EMat (R : Type) where
  cols : Nat
  rows : List (List (Nat × R) × List (Nat × R))

/-- the elements: what the matrix is, as a compressed matrix -/
def EMat.elements (E : EMat R) : SMat R := ⟨E.cols, E.rows.map Prod.fst⟩

/-- all slots, row by row -/
def EMat.slots (E : EMat R) : List (List (Nat × R)) := E.rows.map fun p => p.1 ++ p.2

/-- `sp.nonZeros()` -/
def EMat.nonZeros (E : EMat R) : Nat := E.elements.stored.flatten.length

/-- /repo/src/types.cpp:7-22: the first `nonZeros()` slots of `valuePtr` and `innerIndexPtr` and all of `outerIndexPtr` are copied -/
def Csr.ofEMat (E : EMat R) : Csr R :=
  { vals := (E.slots.flatten.take E.nonZeros).map Prod.snd
    colIdx := (E.slots.flatten.take E.nonZeros).map Prod.fst
    rowPtr := outerIndex 0 E.slots
    rows := E.rows.length
    cols := E.cols }

/-- the loops of /repo/src/gate/gate_matrix.cpp:180-188: one work item per row and element of the row -/
def internalPool (cols : Nat) (rows : List (List (R × Nat))) : Pool (Σ r : Fin rows.length, Fin (rows[r.val]).length) Nat R := fun w =>
  store (w.1.val * cols + ((rows[w.1.val])[w.2.val]).2) ((rows[w.1.val])[w.2.val]).1

/-- /repo/src/gate/gate_matrix.cpp:175-190 `get_matrix_internal` of a sparse gate: the elements are written into a view of zeros; a subscript out of range
is undefined behaviour -/
def SparseInternal [Zero R] (m : Csr R) (out : Res (MatView R)) : Prop :=
  match (List.range m.rows).mapM m.row with
  | .error e => out = .error e
  | .ok rows =>
    if rows.all (fun r => r.all fun p => decide (p.2 < m.cols)) then
      ∃ v, v.rows = m.rows ∧ v.cols = m.cols ∧ Runs (fun a => a < m.rows * m.cols) (internalPool m.cols rows) (fun _ => 0) v.mem ∧ out = .ok v
    else out = .error (.ub "ret(r, col) out of range")

/-- /repo/include/scaluq/gate/gate_factory.hpp:368-389 `gate::SparseMatrix` for every matrix of Eigen's type: with sorted targets the matrix is taken as it
is, otherwise `toDense()` and `sparseView()` (/repo/include/scaluq/util/utility.hpp:225-228) make a compressed one from its elements -/
noncomputable def mkSparseE (targets : List Nat) (E : EMat ℂ) (controls values : List Nat) : Res SparseGate :=
  if isSorted targets then do
    let _ ← resizeAndCheckControlValues controls values
    let o ← mkOperands targets controls values
    pure ⟨.ofEMat E, o⟩
  else mkSparse targets E.elements controls values

end Verif.Model
