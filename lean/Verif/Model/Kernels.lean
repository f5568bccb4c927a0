import Verif.Core.Device

/-!
# State-vector kernels

Model of /repo/src/gate/update_ops_standard.cpp and /repo/src/gate/update_ops_matrix.cpp.  `dim` is
`state.flat_dim()` (= `dim()` for a single state, `batch_size()*dim()` for a batch).  Numbers are elements of an
arbitrary type `R` with the operations used by the kernel.
-/

namespace Verif.Model
open Verif Prog
variable {R : Type}

/-- `Kokkos::kokkos_swap(state.at_unsafe(i), state.at_unsafe(j))`
(used at /repo/src/gate/update_ops_standard.cpp:46). -/
def swapCells (i j : U64) : Prog U64 R Unit := do
  let a ← load i
  let b ← load j
  store i b
  store j a

/-- `state.at_unsafe(i) *= z` (used at /repo/src/gate/update_ops_standard.cpp:29). -/
def mulCell [Mul R] (i : U64) (z : R) : Prog U64 R Unit := do
  let a ← load i
  store i (a * z)

/-- /repo/src/gate/update_ops_standard.cpp:15-31 `one_target_phase_gate`. -/
def phaseGate [Mul R] (t c v : U64) (phase : R) (dim : Nat) : Pool (Fin (workItems dim (t ||| c))) U64 R :=
  parallelFor _ fun it => do
    let i := insertZero it (c ||| t) ||| v
    mulCell (i ||| t) phase

/-- /repo/src/gate/update_ops_standard.cpp:33-48 `x_gate`. -/
def xGate (t c v : U64) (dim : Nat) : Pool (Fin (workItems dim (t ||| c))) U64 R :=
  parallelFor _ fun it => do
    let i := insertZero it (c ||| t) ||| v
    swapCells i (i ||| t)

/-- /repo/src/gate/update_ops_standard.cpp:50-68 `y_gate`; `im` is `ComplexType(0,1)`, `mim` is
`ComplexType(0,-1)`. -/
def yGate [Mul R] (im mim : R) (t c v : U64) (dim : Nat) : Pool (Fin (workItems dim (t ||| c))) U64 R :=
  parallelFor _ fun it => do
    let i := insertZero it (c ||| t) ||| v
    mulCell i im
    mulCell (i ||| t) mim
    swapCells i (i ||| t)

/-- /repo/src/gate/update_ops_matrix.cpp:9-26 `one_target_diagonal_matrix_gate`. -/
def diagGate [Mul R] (t c v : U64) (d0 d1 : R) (dim : Nat) : Pool (Fin (workItems dim (t ||| c))) U64 R :=
  parallelFor _ fun it => do
    let basis := insertZero it (t ||| c) ||| v
    mulCell basis d0
    mulCell (basis ||| t) d1

/-- /repo/src/gate/update_ops_matrix.cpp:52-67 `zero_target_dense_matrix_gate_scalar`. -/
def zeroTargetScalar [Mul R] (c v : U64) (z : R) (dim : Nat) : Pool (Fin (workItems dim c)) U64 R :=
  parallelFor _ fun i => do
    let basis := insertZero i c ||| v
    mulCell basis z

/-- A 2x2 matrix as stored in `Matrix2x2<Prec>` (/repo/include/scaluq/types.hpp:58). -/
structure M22 (R : Type) where
  m00 : R
  m01 : R
  m10 : R
  m11 : R

/-- /repo/src/gate/update_ops_matrix.cpp:121-143 `one_target_dense_matrix_gate_scalar`. -/
def dense1Scalar [Add R] [Mul R] (t c v : U64) (M : M22 R) (dim : Nat) :
    Pool (Fin (workItems dim (t ||| c))) U64 R :=
  parallelFor _ fun it => do
    let basis0 := insertZero it (c ||| t) ||| v
    let basis1 := basis0 ||| t
    let val0 ← load basis0
    let val1 ← load basis1
    let res0 := M.m00 * val0 + M.m01 * val1
    let res1 := M.m10 * val0 + M.m11 * val1
    store basis0 res0
    store basis1 res1

/-- /repo/src/gate/update_ops_standard.cpp:247-265 `swap_gate`; `-target_mask` is 64-bit negation. -/
def swapGate (t c v : U64) (dim : Nat) : Pool (Fin (workItems dim (t ||| c))) U64 R :=
  let lower := t &&& -t
  let upper := t ^^^ lower
  parallelFor _ fun it => do
    let basis := insertZero it (t ||| c) ||| v
    swapCells (basis ||| lower) (basis ||| upper)

/-- /repo/src/gate/update_ops_standard.cpp:267-305 `ecr_gate`; `pt`/`pc` are the physical target/control masks,
`s` is `INVERSE_SQRT2()`, `im` is `ComplexType(0,1)` and `mim` is `ComplexType(0,-1)`. -/
def ecrGate [Add R] [Mul R] (im mim s : R) (pt pc c v : U64) (dim : Nat) :
    Pool (Fin (workItems dim (pt ||| pc ||| c))) U64 R :=
  parallelFor _ fun it => do
    let basis0 := insertZero it (pt ||| pc ||| c) ||| v
    let basis1 := basis0 ||| pc
    let basis2 := basis0 ||| pt
    let basis3 := basis1 ||| pt
    let val0 ← load basis0
    let val1 ← load basis1
    let val2 ← load basis2
    let val3 ← load basis3
    let res0 := (val1 + val3 * im) * s
    let res1 := (val0 + val2 * mim) * s
    let res2 := (val1 * im + val3) * s
    let res3 := (val0 * mim + val2) * s
    store basis0 res0
    store basis1 res1
    store basis2 res2
    store basis3 res3

/-- /repo/src/gate/update_ops_matrix.cpp:170-206 `two_target_dense_matrix_gate`; `M` is `matrix[i][j]`. -/
def dense2 [Add R] [Mul R] (t c v : U64) (M : Fin 4 → Fin 4 → R) (dim : Nat) :
    Pool (Fin (workItems dim (t ||| c))) U64 R :=
  let lower := -t &&& t
  let upper := t ^^^ lower
  parallelFor _ fun it => do
    let basis0 := insertZero it (t ||| c) ||| v
    let basis1 := basis0 ||| lower
    let basis2 := basis0 ||| upper
    let basis3 := basis1 ||| t
    let val0 ← load basis0
    let val1 ← load basis1
    let val2 ← load basis2
    let val3 ← load basis3
    let res0 := M 0 0 * val0 + M 0 1 * val1 + M 0 2 * val2 + M 0 3 * val3
    let res1 := M 1 0 * val0 + M 1 1 * val1 + M 1 2 * val2 + M 1 3 * val3
    let res2 := M 2 0 * val0 + M 2 1 * val1 + M 2 2 * val2 + M 2 3 * val3
    let res3 := M 3 0 * val0 + M 3 1 * val1 + M 3 2 * val2 + M 3 3 * val3
    store basis0 res0
    store basis1 res1
    store basis2 res2
    store basis3 res3

end Verif.Model
