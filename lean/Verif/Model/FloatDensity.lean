import Verif.Model.DensityKernels
import Verif.Model.FloatReduce

/-!
# Updates of density matrices in floating-point arithmetic

The functions of /repo/src/gate/update_ops_dm_standard.cpp with the arithmetic left open, as in `Verif.Model.Float`: every
`+`, `-`, `*` is an operation of the type of complex numbers `R` over `Float<Prec>`, in the order in which the code writes
them.  `updateDMF_exact` (Verif.Proofs.FloatDensityExact) proves that for `F = ℝ`, `R = ℂ` this is the exact model
`UGate.updateDM`.
-/

namespace Verif.Model
open Verif Prog
open Verif.Spec (Gate1)


section
variable {R F : Type} [Cplx R F] [Zero F] [One F] [Add F] [Sub F] [Mul F] [Neg F]
variable [Zero R] [One R] [Add R] [Sub R] [Mul R] [Neg R]

/-- /repo/src/gate/update_ops_dm_standard.cpp:25-90 `one_target_dense_matrix_gate`. -/
def dmDense1F (t c v : U64) (M : M22 R) (dim : Nat) : List (MLaunch R) :=
  let nPairs := workItems dim (t ||| c)
  if c = 0 then
    let ext (y x : Nat) : R := M.at (y >>> 1) (x >>> 1) * conjC (M.at (y &&& 1) (x &&& 1))
    [pairFor nPairs nPairs fun itRow itCol => do
      let row0 := insertZero itRow t ||| v
      let row1 := row0 ||| t
      let col0 := insertZero itCol t ||| v
      let col1 := col0 ||| t
      let v00 ← load (row0, col0)
      let v01 ← load (row0, col1)
      let v10 ← load (row1, col0)
      let v11 ← load (row1, col1)
      store (row0, col0) (ext 0 0 * v00 + ext 0 1 * v01 + ext 0 2 * v10 + ext 0 3 * v11)
      store (row0, col1) (ext 1 0 * v00 + ext 1 1 * v01 + ext 1 2 * v10 + ext 1 3 * v11)
      store (row1, col0) (ext 2 0 * v00 + ext 2 1 * v01 + ext 2 2 * v10 + ext 2 3 * v11)
      store (row1, col1) (ext 3 0 * v00 + ext 3 1 * v01 + ext 3 2 * v10 + ext 3 3 * v11)]
  else
    [pairFor nPairs dim fun it col => do
      let row0 := insertZero it (c ||| t) ||| v
      let row1 := row0 ||| t
      let val0 ← load (row0, col)
      let val1 ← load (row1, col)
      store (row0, col) (M.m00 * val0 + M.m01 * val1)
      store (row1, col) (M.m10 * val0 + M.m11 * val1),
     pairFor dim nPairs fun row it => do
      let col0 := insertZero it (c ||| t) ||| v
      let col1 := col0 ||| t
      let val0 ← load (row, col0)
      let val1 ← load (row, col1)
      store (row, col0) (conjC M.m00 * val0 + conjC M.m01 * val1)
      store (row, col1) (conjC M.m10 * val0 + conjC M.m11 * val1)]

/-- /repo/src/gate/update_ops_dm_standard.cpp:97-198 `one_target_diagonal_matrix_gate`. -/
def dmDiagF (t c v : U64) (d0 d1 : R) (dim : Nat) : List (MLaunch R) :=
  let nPairs := workItems dim (t ||| c)
  if c = 0 then
    [pairFor nPairs nPairs fun itRow itCol => do
      let row0 := insertZero itRow t ||| v
      let row1 := row0 ||| t
      let col0 := insertZero itCol t ||| v
      let col1 := col0 ||| t
      mulAt (row0, col0) (d0 * conjC d0)
      mulAt (row0, col1) (d0 * conjC d1)
      mulAt (row1, col0) (d1 * conjC d0)
      mulAt (row1, col1) (d1 * conjC d1)]
  else if popcount c = 1 then
    let act := v &&& c
    let ina := c ^^^ act
    [pairFor nPairs nPairs fun itRow itCol => do
      let br := insertZero itRow (c ||| t)
      let bc := insertZero itCol (c ||| t)
      let rAct0 := br ||| act
      let rAct1 := rAct0 ||| t
      let rIna0 := br ||| ina
      let rIna1 := rIna0 ||| t
      let cAct0 := bc ||| act
      let cAct1 := cAct0 ||| t
      let cIna0 := bc ||| ina
      let cIna1 := cIna0 ||| t
      mulAt (rIna0, cAct0) (conjC d0)
      mulAt (rIna0, cAct1) (conjC d1)
      mulAt (rIna1, cAct0) (conjC d0)
      mulAt (rIna1, cAct1) (conjC d1)
      mulAt (rAct0, cIna0) d0
      mulAt (rAct0, cIna1) d0
      mulAt (rAct1, cIna0) d1
      mulAt (rAct1, cIna1) d1
      mulAt (rAct0, cAct0) (d0 * conjC d0)
      mulAt (rAct0, cAct1) (d0 * conjC d1)
      mulAt (rAct1, cAct0) (d1 * conjC d0)
      mulAt (rAct1, cAct1) (d1 * conjC d1)]
  else
    [pairFor nPairs dim fun it col => do
      let row0 := insertZero it (c ||| t) ||| v
      let row1 := row0 ||| t
      mulAt (row0, col) d0
      mulAt (row1, col) d1,
     pairFor dim nPairs fun row it => do
      let col0 := insertZero it (c ||| t) ||| v
      let col1 := col0 ||| t
      mulAt (row, col0) (conjC d0)
      mulAt (row, col1) (conjC d1)]

/-- /repo/src/gate/update_ops_dm_standard.cpp:205-283 `one_target_phase_gate`. -/
def dmPhaseF (t c v : U64) (phase : R) (dim : Nat) : List (MLaunch R) :=
  let phaseDag := conjC phase
  let nPairs := workItems dim (t ||| c)
  if c = 0 then
    [pairFor nPairs nPairs fun itRow itCol => do
      let row0 := insertZero itRow t ||| v
      let col0 := insertZero itCol t ||| v
      mulAt (row0, col0 ||| t) phaseDag
      mulAt (row0 ||| t, col0) phase]
  else if popcount c = 1 then
    let act := v &&& c
    let ina := c ^^^ act
    [pairFor nPairs nPairs fun itRow itCol => do
      let br := insertZero itRow (c ||| t)
      let bc := insertZero itCol (c ||| t)
      let rAct0 := br ||| act
      let rAct1 := rAct0 ||| t
      let rIna0 := br ||| ina
      let rIna1 := rIna0 ||| t
      let cAct0 := bc ||| act
      let cAct1 := cAct0 ||| t
      let cIna0 := bc ||| ina
      let cIna1 := cIna0 ||| t
      mulAt (rAct1, cIna0) phase
      mulAt (rAct1, cIna1) phase
      mulAt (rAct1, cAct0) phase
      mulAt (rIna0, cAct1) phaseDag
      mulAt (rIna1, cAct1) phaseDag
      mulAt (rAct0, cAct1) phaseDag]
  else
    [pairFor nPairs dim fun it col => do
      let row1 := insertZero it (c ||| t) ||| v ||| t
      mulAt (row1, col) phase,
     pairFor dim nPairs fun row it => do
      let col1 := insertZero it (c ||| t) ||| v ||| t
      mulAt (row, col1) phaseDag]

/-- /repo/src/gate/update_ops_dm_standard.cpp:288-319 `global_phase_gate`. -/
def dmGlobalPhaseF (lib : FloatLib F) (c v : U64) (angle : ℝ) (dim : Nat) : List (MLaunch R) :=
  if c = 0 then []
  else
    let coef := polarF lib 1 (lib.cast angle)
    let coefDag := conjC coef
    let nCtrl := workItems dim c
    [pairFor nCtrl dim fun it col => do
      let row := insertZero it c ||| v
      mulAt (row, col) coef,
     pairFor dim nCtrl fun row it => do
      let col := insertZero it c ||| v
      mulAt (row, col) coefDag]

/-- /repo/src/gate/update_ops_dm_standard.cpp:328-406 `x_gate`. -/
def dmXF (t c v : U64) (dim : Nat) : List (MLaunch R) :=
  let nPairs := workItems dim (t ||| c)
  if c = 0 then
    [pairFor nPairs nPairs fun itRow itCol => do
      let row0 := insertZero itRow t ||| v
      let col0 := insertZero itCol t ||| v
      exchangeAt (row0, col0) (row0 ||| t, col0 ||| t)
      exchangeAt (row0, col0 ||| t) (row0 ||| t, col0)]
  else if popcount c = 1 then
    let act := v &&& c
    let ina := c ^^^ act
    [pairFor nPairs nPairs fun itRow itCol => do
      let br := insertZero itRow (c ||| t)
      let bc := insertZero itCol (c ||| t)
      let rAct0 := br ||| act
      let rAct1 := rAct0 ||| t
      let rIna0 := br ||| ina
      let rIna1 := rIna0 ||| t
      let cAct0 := bc ||| act
      let cAct1 := cAct0 ||| t
      let cIna0 := bc ||| ina
      let cIna1 := cIna0 ||| t
      exchangeAt (rIna0, cAct0) (rIna0, cAct1)
      exchangeAt (rIna1, cAct0) (rIna1, cAct1)
      exchangeAt (rAct0, cIna0) (rAct1, cIna0)
      exchangeAt (rAct0, cIna1) (rAct1, cIna1)
      exchangeAt (rAct0, cAct0) (rAct1, cAct1)
      exchangeAt (rAct0, cAct1) (rAct1, cAct0)]
  else
    [pairFor nPairs dim fun it col => do
      let row0 := insertZero it (c ||| t) ||| v
      exchangeAt (row0, col) (row0 ||| t, col),
     pairFor dim nPairs fun row it => do
      let col0 := insertZero it (c ||| t) ||| v
      exchangeAt (row, col0) (row, col0 ||| t)]

/-- /repo/src/gate/update_ops_dm_standard.cpp:411-470 `y_gate`. -/
def dmYF (t c v : U64) (dim : Nat) : List (MLaunch R) :=
  let nPairs := workItems dim (t ||| c)
  if c = 0 then
    [pairFor nPairs nPairs fun itRow itCol => do
      let row0 := insertZero itRow t ||| v
      let row1 := row0 ||| t
      let col0 := insertZero itCol t ||| v
      let col1 := col0 ||| t
      let v00 ← load (row0, col0)
      let v01 ← load (row0, col1)
      let v10 ← load (row1, col0)
      let v11 ← load (row1, col1)
      store (row0, col0) v11
      store (row0, col1) (-v10)
      store (row1, col0) (-v01)
      store (row1, col1) v00]
  else
    [pairFor nPairs dim fun it col => do
      let row0 := insertZero it (c ||| t) ||| v
      let row1 := row0 ||| t
      let val0 ← load (row0, col)
      let val1 ← load (row1, col)
      store (row0, col) ((Cplx.ofParts 0 (-1) : R) * val1)
      store (row1, col) ((Cplx.ofParts 0 1 : R) * val0),
     pairFor dim nPairs fun row it => do
      let col0 := insertZero it (c ||| t) ||| v
      let col1 := col0 ||| t
      let val0 ← load (row, col0)
      let val1 ← load (row, col1)
      store (row, col0) ((Cplx.ofParts 0 1 : R) * val1)
      store (row, col1) ((Cplx.ofParts 0 (-1) : R) * val0)]

/-- /repo/src/gate/update_ops_dm_standard.cpp:557-587 `swap_gate`. -/
def dmSwapF (t c v : U64) (dim : Nat) : List (MLaunch R) :=
  let lower := t &&& -t
  let upper := t ^^^ lower
  let nQuads := workItems dim (t ||| c)
  [pairFor nQuads dim fun it col => do
    let basis := insertZero it (t ||| c) ||| v
    exchangeAt (basis ||| lower, col) (basis ||| upper, col),
   pairFor dim nQuads fun row it => do
    let basis := insertZero it (t ||| c) ||| v
    exchangeAt (row, basis ||| lower) (row, basis ||| upper)]

/-- the array `ecr` of /repo/src/gate/update_ops_dm_standard.cpp:603-610 -/
noncomputable def dmEcrMatrixF (lib : FloatLib F) (i j : Nat) : R :=
  let s : F := invSqrt2F lib
  match i, j with
  | 0, 1 => Cplx.ofParts s 0
  | 0, 3 => Cplx.ofParts 0 s
  | 1, 0 => Cplx.ofParts s 0
  | 1, 2 => Cplx.ofParts 0 (-s)
  | 2, 1 => Cplx.ofParts 0 s
  | 2, 3 => Cplx.ofParts s 0
  | 3, 0 => Cplx.ofParts 0 (-s)
  | 3, 2 => Cplx.ofParts s 0
  | _, _ => 0

/-- /repo/src/gate/update_ops_dm_standard.cpp:597-712 `ecr_gate`; the array `v` of the block branch is indexed
`i * 4 + j`, so its cells are listed row by row. -/
noncomputable def dmEcrF (lib : FloatLib F) (pt pc c v : U64) (dim : Nat) : List (MLaunch R) :=
  let allMask := pt ||| pc ||| c
  let nQuads := workItems dim allMask
  if c = 0 then
    let ext (y x : Nat) : R := (dmEcrMatrixF lib) (y >>> 2) (x >>> 2) * conjC ((dmEcrMatrixF lib) (y &&& 3) (x &&& 3))
    [pairFor nQuads nQuads fun itRow itCol =>
      let r := quadOf (insertZero itRow allMask ||| v) pc pt
      let cc := quadOf (insertZero itCol allMask ||| v) pc pt
      matBody (r.flatMap fun a => cc.map fun b => (a, b)) ext]
  else
    [pairFor nQuads dim fun it col =>
      let r := quadOf (insertZero it allMask ||| v) pc pt
      matBody (r.map fun a => (a, col)) (dmEcrMatrixF lib),
     pairFor dim nQuads fun row it =>
      let cc := quadOf (insertZero it allMask ||| v) pc pt
      matBody (cc.map fun b => (row, b)) fun i j => conjC (dmEcrMatrixF lib i j)]

variable (lib : FloatLib F)

/-- What each one-qubit gate launches on a density matrix: /repo/src/gate/update_ops.hpp:405-510 (line of each in the
comment) and /repo/src/gate/update_ops_dm_standard.cpp:472-554. -/
noncomputable def dmGate1F (o : Operands) (dim : Nat) : Gate1 → List (MLaunch R)
  | .X => dmXF o.t o.c o.v dim
  | .Y => dmYF o.t o.c o.v dim
  | .Z => dmDiagF o.t o.c o.v (Cplx.ofParts 1 0) (Cplx.ofParts (-1) 0) dim  -- dm_standard 472-479
  | .H => dmDense1F o.t o.c o.v (hadamardF lib) dim  -- 405-412
  | .S => dmPhaseF o.t o.c o.v (Cplx.ofParts 0 1) dim  -- 414-420
  | .Sdag => dmPhaseF o.t o.c o.v (Cplx.ofParts 0 (-1)) dim  -- 422-428
  | .T => dmPhaseF o.t o.c o.v (lit lib inverseSqrt2 inverseSqrt2) dim  -- 430-440
  | .Tdag => dmPhaseF o.t o.c o.v (lit lib inverseSqrt2 (-inverseSqrt2)) dim  -- 442-452
  | .SqrtX => dmDense1F o.t o.c o.v (sqrtXF lib) dim  -- 454-461
  | .SqrtXdag => dmDense1F o.t o.c o.v (sqrtXdagF lib) dim  -- 463-470
  | .SqrtY => dmDense1F o.t o.c o.v (sqrtYF lib) dim  -- 472-479
  | .SqrtYdag => dmDense1F o.t o.c o.v (sqrtYdagF lib) dim  -- 481-488
  | .P0 => dmDense1F o.t o.c o.v ⟨1, 0, 0, 0⟩ dim  -- 490-497
  | .P1 => dmDense1F o.t o.c o.v ⟨0, 0, 0, 1⟩ dim  -- 499-506
  | .RX angle =>  -- dm_standard 481-492
    let cosval := lib.cos (lib.half (lib.cast angle))
    let sinval := lib.sin (lib.half (lib.cast angle))
    dmDense1F o.t o.c o.v ⟨Cplx.ofParts cosval 0, Cplx.ofParts 0 (-sinval), Cplx.ofParts 0 (-sinval), Cplx.ofParts cosval 0⟩ dim
  | .RY angle =>  -- dm_standard 494-504
    let cosval := lib.cos (lib.half (lib.cast angle))
    let sinval := lib.sin (lib.half (lib.cast angle))
    dmDense1F o.t o.c o.v ⟨Cplx.ofParts cosval 0, Cplx.ofParts (-sinval) 0, Cplx.ofParts sinval 0, Cplx.ofParts cosval 0⟩ dim
  | .RZ angle =>  -- dm_standard 506-516
    let cosval := lib.cos (lib.half (lib.cast angle))
    let sinval := lib.sin (lib.half (lib.cast angle))
    dmDiagF o.t o.c o.v (Cplx.ofParts cosval (-sinval)) (Cplx.ofParts cosval sinval) dim
  | .U1 lam => dmDiagF o.t o.c o.v (Cplx.ofParts 1 0) (expC lib (Cplx.ofParts 0 (lib.cast lam))) dim  -- dm_standard 518-527
  | .U2 phi lam => dmDense1F o.t o.c o.v (ibmqF lib (lib.cast (Real.pi / 2)) (lib.cast phi) (lib.cast lam)) dim           -- dm_standard 529-542
  | .U3 theta phi lam => dmDense1F o.t o.c o.v (ibmqF lib (lib.cast theta) (lib.cast phi) (lib.cast lam)) dim             -- dm_standard 544-554

/-- `update_quantum_state` of every gate class on a density matrix of `n` qubits: the standard classes check their
qubits (/repo/src/gate/gate.cpp:67-98) and run their kernel (/repo/src/gate/gate_standard.cpp:36-110, 142-1376), I does
nothing (/repo/src/gate/gate_standard.cpp:35-52); the classes of the other headers and Permutation inherit the throwing
default (/repo/include/scaluq/gate/gate.hpp:482-497). -/
noncomputable def UGate.updateDMF (n : Nat) : UGate → Res (List (MLaunch R))
  | .ident => .ok []
  | .globalPhase phase o => do
    checkWithinBounds o n
    pure (dmGlobalPhaseF lib o.c o.v phase (2 ^ n))
  | .one k o => do
    checkWithinBounds o n
    pure (dmGate1F lib o (2 ^ n) k)
  | .swap o => do
    checkWithinBounds o n
    pure (dmSwapF o.t o.c o.v (2 ^ n))
  | .ecr g => do
    checkWithinBounds g.o n
    pure (dmEcrF lib g.pt g.pc g.o.c g.o.v (2 ^ n))
  | .perm _ | .dense _ | .sparse _ | .pauli _ | .pauliRot _ _ =>
    .error (.throw "update_quantum_state for DensityMatrix is not implemented for this gate.")

/-- a sequence of calls of `update_quantum_state` (/repo/include/scaluq/gate/gate.hpp:482-497) on one density matrix of
`n` qubits -/
def GatesRunDMF (n : Nat) : List UGate → (U64 × U64 → R) → (U64 × U64 → R) → Prop
  | [], M, M' => M' = M
  | g :: gs, M, M' => ∃ ls M₁, g.updateDMF lib n = .ok ls ∧ MRuns (2 ^ n) ls M M₁ ∧ GatesRunDMF n gs M₁ M'

end

end Verif.Model
