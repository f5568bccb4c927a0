import Verif.Core.Pair
import Verif.Model.UGate

/-!
# Density-matrix kernels

Model of /repo/src/gate/update_ops_dm_standard.cpp.  `dim` is `dm.dim()`; the cell `dm._raw(r, c)` is the address
`(r, c)`.  Each definition gives the list of launches, run one after the other.
-/

namespace Verif.Model
open Verif Verif.Spec Prog
open scoped ComplexConjugate

section
variable {A R : Type}

/-- `Kokkos::kokkos_swap(dm._raw(a), dm._raw(b))` (used at /repo/src/gate/update_ops_dm_standard.cpp:346). -/
def exchangeAt (a b : A) : Prog A R Unit := do
  let x ← load a
  let y ← load b
  store a y
  store b x

/-- `dm._raw(a) *= z` (used at /repo/src/gate/update_ops_dm_standard.cpp:124). -/
def mulAt [Mul R] (a : A) (z : R) : Prog A R Unit := do
  let x ← load a
  store a (x * z)

/-- `for (i) v[i] = dm._raw(cells[i])` (/repo/src/gate/update_ops_dm_standard.cpp:645-647, 680, 704). -/
def loadAll : List A → Prog A R (List R)
  | [] => .pure []
  | a :: as => do
    let v ← load a
    let vs ← loadAll as
    .pure (v :: vs)

/-- `for (y) dm._raw(cells[y]) = …` (/repo/src/gate/update_ops_dm_standard.cpp:649-654, 681-685, 705-709). -/
def storeAll : List (A × R) → Prog A R Unit
  | [] => .pure ()
  | p :: ps => do
    store p.1 p.2
    storeAll ps

/-- read all cells, then write to each the row of `E` applied to the values read; the sum starts at `C(0)`
(/repo/src/gate/update_ops_dm_standard.cpp:644-654, 679-685, 703-709). -/
def matBody [Zero R] [Add R] [Mul R] (cells : List A) (E : Nat → Nat → R) : Prog A R Unit := do
  let vs ← loadAll cells
  storeAll (cells.zipIdx.map fun p => (p.1, vs.zipIdx.foldl (fun sum q => sum + E p.2 q.2 * q.1) 0))
end

/-- `matrix[i][j]` -/
def M22.at {R : Type} [Zero R] (M : M22 R) : Nat → Nat → R := mat2 M.m00 M.m01 M.m10 M.m11

/-- /repo/src/gate/update_ops_dm_standard.cpp:25-90 `one_target_dense_matrix_gate`. -/
noncomputable def dmDense1 (t c v : U64) (M : M22 ℂ) (dim : Nat) : List (MLaunch ℂ) :=
  let nPairs := workItems dim (t ||| c)
  if c = 0 then
    let ext (y x : Nat) : ℂ := M.at (y >>> 1) (x >>> 1) * conj (M.at (y &&& 1) (x &&& 1))
    [pairFor nPairs nPairs fun itRow itCol => do
      let row0 := insertZero itRow t ||| v
      let row1 := row0 ||| t
      let col0 := insertZero itCol t ||| v
      let col1 := col0 ||| t
      let v00 ← load (row0, col0)
      let v01 ← load (row0, col1)
      let v10 ← load (row1, col0)
      let v11 ← load (row1, col1)
      store (row0, col0) (ext 0 0 * v00 + ext 0 1 * v01 + ext 0 2 * v10 + ext 0 3 * v11)
      store (row0, col1) (ext 1 0 * v00 + ext 1 1 * v01 + ext 1 2 * v10 + ext 1 3 * v11)
      store (row1, col0) (ext 2 0 * v00 + ext 2 1 * v01 + ext 2 2 * v10 + ext 2 3 * v11)
      store (row1, col1) (ext 3 0 * v00 + ext 3 1 * v01 + ext 3 2 * v10 + ext 3 3 * v11)]
  else
    [pairFor nPairs dim fun it col => do
      let row0 := insertZero it (c ||| t) ||| v
      let row1 := row0 ||| t
      let val0 ← load (row0, col)
      let val1 ← load (row1, col)
      store (row0, col) (M.m00 * val0 + M.m01 * val1)
      store (row1, col) (M.m10 * val0 + M.m11 * val1),
     pairFor dim nPairs fun row it => do
      let col0 := insertZero it (c ||| t) ||| v
      let col1 := col0 ||| t
      let val0 ← load (row, col0)
      let val1 ← load (row, col1)
      store (row, col0) (conj M.m00 * val0 + conj M.m01 * val1)
      store (row, col1) (conj M.m10 * val0 + conj M.m11 * val1)]

/-- /repo/src/gate/update_ops_dm_standard.cpp:97-198 `one_target_diagonal_matrix_gate`. -/
noncomputable def dmDiag (t c v : U64) (d0 d1 : ℂ) (dim : Nat) : List (MLaunch ℂ) :=
  let nPairs := workItems dim (t ||| c)
  if c = 0 then
    [pairFor nPairs nPairs fun itRow itCol => do
      let row0 := insertZero itRow t ||| v
      let row1 := row0 ||| t
      let col0 := insertZero itCol t ||| v
      let col1 := col0 ||| t
      mulAt (row0, col0) (d0 * conj d0)
      mulAt (row0, col1) (d0 * conj d1)
      mulAt (row1, col0) (d1 * conj d0)
      mulAt (row1, col1) (d1 * conj d1)]
  else if popcount c = 1 then
    let act := v &&& c
    let ina := c ^^^ act
    [pairFor nPairs nPairs fun itRow itCol => do
      let br := insertZero itRow (c ||| t)
      let bc := insertZero itCol (c ||| t)
      let rAct0 := br ||| act
      let rAct1 := rAct0 ||| t
      let rIna0 := br ||| ina
      let rIna1 := rIna0 ||| t
      let cAct0 := bc ||| act
      let cAct1 := cAct0 ||| t
      let cIna0 := bc ||| ina
      let cIna1 := cIna0 ||| t
      mulAt (rIna0, cAct0) (conj d0)
      mulAt (rIna0, cAct1) (conj d1)
      mulAt (rIna1, cAct0) (conj d0)
      mulAt (rIna1, cAct1) (conj d1)
      mulAt (rAct0, cIna0) d0
      mulAt (rAct0, cIna1) d0
      mulAt (rAct1, cIna0) d1
      mulAt (rAct1, cIna1) d1
      mulAt (rAct0, cAct0) (d0 * conj d0)
      mulAt (rAct0, cAct1) (d0 * conj d1)
      mulAt (rAct1, cAct0) (d1 * conj d0)
      mulAt (rAct1, cAct1) (d1 * conj d1)]
  else
    [pairFor nPairs dim fun it col => do
      let row0 := insertZero it (c ||| t) ||| v
      let row1 := row0 ||| t
      mulAt (row0, col) d0
      mulAt (row1, col) d1,
     pairFor dim nPairs fun row it => do
      let col0 := insertZero it (c ||| t) ||| v
      let col1 := col0 ||| t
      mulAt (row, col0) (conj d0)
      mulAt (row, col1) (conj d1)]

/-- /repo/src/gate/update_ops_dm_standard.cpp:205-283 `one_target_phase_gate`. -/
noncomputable def dmPhase (t c v : U64) (phase : ℂ) (dim : Nat) : List (MLaunch ℂ) :=
  let phaseDag := conj phase
  let nPairs := workItems dim (t ||| c)
  if c = 0 then
    [pairFor nPairs nPairs fun itRow itCol => do
      let row0 := insertZero itRow t ||| v
      let col0 := insertZero itCol t ||| v
      mulAt (row0, col0 ||| t) phaseDag
      mulAt (row0 ||| t, col0) phase]
  else if popcount c = 1 then
    let act := v &&& c
    let ina := c ^^^ act
    [pairFor nPairs nPairs fun itRow itCol => do
      let br := insertZero itRow (c ||| t)
      let bc := insertZero itCol (c ||| t)
      let rAct0 := br ||| act
      let rAct1 := rAct0 ||| t
      let rIna0 := br ||| ina
      let rIna1 := rIna0 ||| t
      let cAct0 := bc ||| act
      let cAct1 := cAct0 ||| t
      let cIna0 := bc ||| ina
      let cIna1 := cIna0 ||| t
      mulAt (rAct1, cIna0) phase
      mulAt (rAct1, cIna1) phase
      mulAt (rAct1, cAct0) phase
      mulAt (rIna0, cAct1) phaseDag
      mulAt (rIna1, cAct1) phaseDag
      mulAt (rAct0, cAct1) phaseDag]
  else
    [pairFor nPairs dim fun it col => do
      let row1 := insertZero it (c ||| t) ||| v ||| t
      mulAt (row1, col) phase,
     pairFor dim nPairs fun row it => do
      let col1 := insertZero it (c ||| t) ||| v ||| t
      mulAt (row, col1) phaseDag]

/-- /repo/src/gate/update_ops_dm_standard.cpp:288-319 `global_phase_gate`. -/
noncomputable def dmGlobalPhase (c v : U64) (angle : ℝ) (dim : Nat) : List (MLaunch ℂ) :=
  if c = 0 then []
  else
    let coef := polar 1 angle
    let coefDag := conj coef
    let nCtrl := workItems dim c
    [pairFor nCtrl dim fun it col => do
      let row := insertZero it c ||| v
      mulAt (row, col) coef,
     pairFor dim nCtrl fun row it => do
      let col := insertZero it c ||| v
      mulAt (row, col) coefDag]

/-- /repo/src/gate/update_ops_dm_standard.cpp:328-406 `x_gate`. -/
noncomputable def dmX (t c v : U64) (dim : Nat) : List (MLaunch ℂ) :=
  let nPairs := workItems dim (t ||| c)
  if c = 0 then
    [pairFor nPairs nPairs fun itRow itCol => do
      let row0 := insertZero itRow t ||| v
      let col0 := insertZero itCol t ||| v
      exchangeAt (row0, col0) (row0 ||| t, col0 ||| t)
      exchangeAt (row0, col0 ||| t) (row0 ||| t, col0)]
  else if popcount c = 1 then
    let act := v &&& c
    let ina := c ^^^ act
    [pairFor nPairs nPairs fun itRow itCol => do
      let br := insertZero itRow (c ||| t)
      let bc := insertZero itCol (c ||| t)
      let rAct0 := br ||| act
      let rAct1 := rAct0 ||| t
      let rIna0 := br ||| ina
      let rIna1 := rIna0 ||| t
      let cAct0 := bc ||| act
      let cAct1 := cAct0 ||| t
      let cIna0 := bc ||| ina
      let cIna1 := cIna0 ||| t
      exchangeAt (rIna0, cAct0) (rIna0, cAct1)
      exchangeAt (rIna1, cAct0) (rIna1, cAct1)
      exchangeAt (rAct0, cIna0) (rAct1, cIna0)
      exchangeAt (rAct0, cIna1) (rAct1, cIna1)
      exchangeAt (rAct0, cAct0) (rAct1, cAct1)
      exchangeAt (rAct0, cAct1) (rAct1, cAct0)]
  else
    [pairFor nPairs dim fun it col => do
      let row0 := insertZero it (c ||| t) ||| v
      exchangeAt (row0, col) (row0 ||| t, col),
     pairFor dim nPairs fun row it => do
      let col0 := insertZero it (c ||| t) ||| v
      exchangeAt (row, col0) (row, col0 ||| t)]

/-- /repo/src/gate/update_ops_dm_standard.cpp:411-470 `y_gate`. -/
noncomputable def dmY (t c v : U64) (dim : Nat) : List (MLaunch ℂ) :=
  let nPairs := workItems dim (t ||| c)
  if c = 0 then
    [pairFor nPairs nPairs fun itRow itCol => do
      let row0 := insertZero itRow t ||| v
      let row1 := row0 ||| t
      let col0 := insertZero itCol t ||| v
      let col1 := col0 ||| t
      let v00 ← load (row0, col0)
      let v01 ← load (row0, col1)
      let v10 ← load (row1, col0)
      let v11 ← load (row1, col1)
      store (row0, col0) v11
      store (row0, col1) (-v10)
      store (row1, col0) (-v01)
      store (row1, col1) v00]
  else
    [pairFor nPairs dim fun it col => do
      let row0 := insertZero it (c ||| t) ||| v
      let row1 := row0 ||| t
      let val0 ← load (row0, col)
      let val1 ← load (row1, col)
      store (row0, col) ((⟨0, -1⟩ : ℂ) * val1)
      store (row1, col) ((⟨0, 1⟩ : ℂ) * val0),
     pairFor dim nPairs fun row it => do
      let col0 := insertZero it (c ||| t) ||| v
      let col1 := col0 ||| t
      let val0 ← load (row, col0)
      let val1 ← load (row, col1)
      store (row, col0) ((⟨0, 1⟩ : ℂ) * val1)
      store (row, col1) ((⟨0, -1⟩ : ℂ) * val0)]

/-- /repo/src/gate/update_ops_dm_standard.cpp:557-587 `swap_gate`. -/
noncomputable def dmSwap (t c v : U64) (dim : Nat) : List (MLaunch ℂ) :=
  let lower := t &&& -t
  let upper := t ^^^ lower
  let nQuads := workItems dim (t ||| c)
  [pairFor nQuads dim fun it col => do
    let basis := insertZero it (t ||| c) ||| v
    exchangeAt (basis ||| lower, col) (basis ||| upper, col),
   pairFor dim nQuads fun row it => do
    let basis := insertZero it (t ||| c) ||| v
    exchangeAt (row, basis ||| lower) (row, basis ||| upper)]

/-- the array `ecr` of /repo/src/gate/update_ops_dm_standard.cpp:603-610 -/
noncomputable def dmEcrMatrix (i j : Nat) : ℂ :=
  let s : ℝ := inverseSqrt2
  match i, j with
  | 0, 1 => ⟨s, 0⟩
  | 0, 3 => ⟨0, s⟩
  | 1, 0 => ⟨s, 0⟩
  | 1, 2 => ⟨0, -s⟩
  | 2, 1 => ⟨0, s⟩
  | 2, 3 => ⟨s, 0⟩
  | 3, 0 => ⟨0, -s⟩
  | 3, 2 => ⟨s, 0⟩
  | _, _ => 0

/-- the four indices of /repo/src/gate/update_ops_dm_standard.cpp:633-637 -/
def quadOf (base pc pt : U64) : List U64 := [base, base ||| pc, base ||| pt, base ||| pc ||| pt]

/-- /repo/src/gate/update_ops_dm_standard.cpp:597-712 `ecr_gate`; the array `v` of the block branch is indexed
`i * 4 + j`, so its cells are listed row by row. -/
noncomputable def dmEcr (pt pc c v : U64) (dim : Nat) : List (MLaunch ℂ) :=
  let allMask := pt ||| pc ||| c
  let nQuads := workItems dim allMask
  if c = 0 then
    let ext (y x : Nat) : ℂ := dmEcrMatrix (y >>> 2) (x >>> 2) * conj (dmEcrMatrix (y &&& 3) (x &&& 3))
    [pairFor nQuads nQuads fun itRow itCol =>
      let r := quadOf (insertZero itRow allMask ||| v) pc pt
      let cc := quadOf (insertZero itCol allMask ||| v) pc pt
      matBody (r.flatMap fun a => cc.map fun b => (a, b)) ext]
  else
    [pairFor nQuads dim fun it col =>
      let r := quadOf (insertZero it allMask ||| v) pc pt
      matBody (r.map fun a => (a, col)) dmEcrMatrix,
     pairFor dim nQuads fun row it =>
      let cc := quadOf (insertZero it allMask ||| v) pc pt
      matBody (cc.map fun b => (row, b)) fun i j => conj (dmEcrMatrix i j)]

/-- What each one-qubit gate launches on a density matrix: /repo/src/gate/update_ops.hpp:405-510 (line of each in the
comment) and /repo/src/gate/update_ops_dm_standard.cpp:472-554. -/
noncomputable def dmGate1 (o : Operands) (dim : Nat) : Gate1 → List (MLaunch ℂ)
  | .X => dmX o.t o.c o.v dim
  | .Y => dmY o.t o.c o.v dim
  | .Z => dmDiag o.t o.c o.v ⟨1, 0⟩ ⟨-1, 0⟩ dim                                          -- dm_standard 472-479
  | .H => dmDense1 o.t o.c o.v hadamardMatrix dim                                        -- 405-412
  | .S => dmPhase o.t o.c o.v ⟨0, 1⟩ dim                                                 -- 414-420
  | .Sdag => dmPhase o.t o.c o.v ⟨0, -1⟩ dim                                             -- 422-428
  | .T => dmPhase o.t o.c o.v ⟨inverseSqrt2, inverseSqrt2⟩ dim                           -- 430-440
  | .Tdag => dmPhase o.t o.c o.v ⟨inverseSqrt2, -inverseSqrt2⟩ dim                       -- 442-452
  | .SqrtX => dmDense1 o.t o.c o.v sqrtXMatrix dim                                       -- 454-461
  | .SqrtXdag => dmDense1 o.t o.c o.v sqrtXdagMatrix dim                                 -- 463-470
  | .SqrtY => dmDense1 o.t o.c o.v sqrtYMatrix dim                                       -- 472-479
  | .SqrtYdag => dmDense1 o.t o.c o.v sqrtYdagMatrix dim                                 -- 481-488
  | .P0 => dmDense1 o.t o.c o.v proj0Matrix dim                                          -- 490-497
  | .P1 => dmDense1 o.t o.c o.v proj1Matrix dim                                          -- 499-506
  | .RX angle =>                                                                         -- dm_standard 481-492
    let cosval := Real.cos (angle / 2)
    let sinval := Real.sin (angle / 2)
    dmDense1 o.t o.c o.v ⟨(cosval : ℂ), ⟨0, -sinval⟩, ⟨0, -sinval⟩, (cosval : ℂ)⟩ dim
  | .RY angle =>                                                                         -- dm_standard 494-504
    let cosval := Real.cos (angle / 2)
    let sinval := Real.sin (angle / 2)
    dmDense1 o.t o.c o.v ⟨(cosval : ℂ), ((-sinval : ℝ) : ℂ), (sinval : ℂ), (cosval : ℂ)⟩ dim
  | .RZ angle =>                                                                         -- dm_standard 506-516
    let cosval := Real.cos (angle / 2)
    let sinval := Real.sin (angle / 2)
    dmDiag o.t o.c o.v ⟨cosval, -sinval⟩ ⟨cosval, sinval⟩ dim
  | .U1 lam => dmDiag o.t o.c o.v ⟨1, 0⟩ (expI lam) dim                                  -- dm_standard 518-527
  | .U2 phi lam => dmDense1 o.t o.c o.v (ibmqMatrix (Real.pi / 2) phi lam) dim           -- dm_standard 529-542
  | .U3 theta phi lam => dmDense1 o.t o.c o.v (ibmqMatrix theta phi lam) dim             -- dm_standard 544-554

/-- `update_quantum_state` of every gate class on a density matrix of `n` qubits: the standard classes check their
qubits (/repo/src/gate/gate.cpp:67-98) and run their kernel (/repo/src/gate/gate_standard.cpp:36-110, 142-1376), I does
nothing (/repo/src/gate/gate_standard.cpp:35-52); the classes of the other headers and Permutation inherit the throwing
default (/repo/include/scaluq/gate/gate.hpp:482-497). -/
noncomputable def UGate.updateDM (n : Nat) : UGate → Res (List (MLaunch ℂ))
  | .ident => .ok []
  | .globalPhase phase o => do
    checkWithinBounds o n
    pure (dmGlobalPhase o.c o.v phase (2 ^ n))
  | .one k o => do
    checkWithinBounds o n
    pure (dmGate1 o (2 ^ n) k)
  | .swap o => do
    checkWithinBounds o n
    pure (dmSwap o.t o.c o.v (2 ^ n))
  | .ecr g => do
    checkWithinBounds g.o n
    pure (dmEcr g.pt g.pc g.o.c g.o.v (2 ^ n))
  | .perm _ | .dense _ | .sparse _ | .pauli _ | .pauliRot _ _ =>
    .error (.throw "update_quantum_state for DensityMatrix is not implemented for this gate.")

end Verif.Model
