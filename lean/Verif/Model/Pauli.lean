import Verif.Model.Kernels
import Verif.Model.Dense
import Verif.Model.Gate1
import Verif.Model.Reduce

/-!
# Pauli operators

Model of /repo/include/scaluq/operator/apply_pauli.hpp and /repo/src/operator/pauli_operator.cpp.
-/

namespace Verif.Model
open Verif
open Verif.Prog (load store)

/-- `ComplexType(0, 1)` -/
def imagUnit : ℂ := ⟨0, 1⟩

/-- /repo/include/scaluq/constant.hpp:112-114 `PHASE_90ROT()[k % 4]`. -/
def phase90 (k : Nat) : ℂ := (![1, imagUnit, -1, -imagUnit] : Fin 4 → ℂ) (Fin.ofNat 4 k)

/-- /repo/include/scaluq/constant.hpp:117-119 `PHASE_M90ROT()[k % 4]`. -/
def phaseM90 (k : Nat) : ℂ := (![1, -imagUnit, -1, imagUnit] : Fin 4 → ℂ) (Fin.ofNat 4 k)

/-- `std::bit_width(m) - 1` for nonzero `m`: position of the highest set bit. -/
def pivotOf (m : U64) : Nat := Nat.log2 m.toNat

/-- `Kokkos::popcount(m) & 1` as a condition -/
def oddParity (m : U64) : Bool := popcount m % 2 == 1

/-- /repo/include/scaluq/operator/apply_pauli.hpp:23-36: the diagonal case of `apply_pauli`. -/
def pauliDiag {R : Type} [Mul R] [Neg R] (c v z : U64) (coef : R) (dim : Nat) : Pool (Fin (workItems dim c)) U64 R :=
  parallelFor _ fun i => do
    let idx := insertZero i c ||| v
    if oddParity (idx &&& z) then mulCell idx (-coef) else mulCell idx coef

/-- /repo/include/scaluq/operator/apply_pauli.hpp:41-55: the kernel of `apply_pauli` when some bit is flipped. -/
def pauliFlip {R : Type} [Mul R] [Neg R] (c v x z : U64) (globalPhase coef : R) (dim : Nat) :
    Pool (Fin (dim >>> (popcount c + 1))) U64 R :=
  parallelFor _ fun i => do
    let basis0 := insertZero i (c ||| (1#64 <<< pivotOf x)) ||| v
    let basis1 := basis0 ^^^ x
    let a ← load basis0
    let b ← load basis1
    let tmp1 := a * globalPhase
    let tmp2 := b * globalPhase
    let tmp2 := if oddParity (basis0 &&& z) then -tmp2 else tmp2
    let tmp1 := if oddParity (basis1 &&& z) then -tmp1 else tmp1
    store basis0 (tmp2 * coef)
    store basis1 (tmp1 * coef)

/-- /repo/include/scaluq/operator/apply_pauli.hpp:15-56 `apply_pauli`. -/
def applyPauli (c v x z : U64) (coef : ℂ) (dim : Nat) : Device ℂ :=
  if x = 0 then .par _ (pauliDiag c v z coef dim)
  else .par _ (pauliFlip c v x z (phaseM90 (popcount (x &&& z))) coef dim)

/-- /repo/include/scaluq/operator/apply_pauli.hpp:187-205: the diagonal case of `apply_pauli_rotation`. -/
def pauliRotDiag {R : Type} [Mul R] (c v z : U64) (cvalMin cvalPls : R) (dim : Nat) :
    Pool (Fin (workItems dim c)) U64 R :=
  parallelFor _ fun i => do
    let idx := insertZero i c ||| v
    if oddParity (idx &&& z) then mulCell idx cvalMin else mulCell idx cvalPls

/-- /repo/include/scaluq/operator/apply_pauli.hpp:207-231: the other case; `im` is
`Complex(0, 1)` and `rot k` is `PHASE_M90ROT()[k % 4]`. -/
def pauliRotFlip {R : Type} [Add R] [Mul R] (im : R) (rot : Nat → R) (c v x z : U64) (cosval sinval : R) (dim : Nat) :
    Pool (Fin (dim >>> (popcount c + 1))) U64 R :=
  let count := popcount (x &&& z)
  parallelFor _ fun i => do
    let basis0 := insertZero i (c ||| (1#64 <<< pivotOf x)) ||| v
    let basis1 := basis0 ^^^ x
    let parity0 := popcount (basis0 &&& z) % 2
    let parity1 := popcount (basis1 &&& z) % 2
    let cval0 ← load basis0
    let cval1 ← load basis1
    store basis0 (cosval * cval0 + im * sinval * cval1 * rot (count + parity0 * 2))
    store basis1 (cosval * cval1 + im * sinval * cval0 * rot (count + parity1 * 2))

/-- /repo/include/scaluq/operator/apply_pauli.hpp:173-232 `apply_pauli_rotation`. -/
noncomputable def applyPauliRotation (c v x z : U64) (coef : ℂ) (angle : ℝ) (dim : Nat) : Device ℂ :=
  let trueAngle : ℂ := angle * coef
  let halfAngle := trueAngle / 2
  let cosval := Complex.cos (-halfAngle)
  let sinval := Complex.sin (-halfAngle)
  if x = 0 then .par _ (pauliRotDiag c v z (cosval - imagUnit * sinval) (cosval + imagUnit * sinval) dim)
  else .par _ (pauliRotFlip imagUnit phaseM90 c v x z cosval sinval dim)

/-- /repo/include/scaluq/operator/pauli_operator.hpp:19-20. -/
structure PauliOp where
  coef : ℂ
  x : U64
  z : U64

/-- /repo/src/operator/pauli_operator.cpp:59-78 `add_single_pauli`. -/
def PauliOp.addSingle (p : PauliOp) (q id : Nat) : Res PauliOp :=
  if q ≥ 64 then .error (.throw "PauliOperator::add_single_pauli: target_qubit is too large")
  else if id ≥ 4 then .error (.throw "PauliOperator::add_single_pauli: pauli_id is invalid")
  else if ((p.x ||| p.z) >>> q) &&& 1#64 ≠ 0 then
    .error (.throw "PauliOperator::add_single_pauli: You cannot add single pauli twice for same qubit.")
  else do
    let b ← shl1 q
    let x := if id = 1 ∨ id = 2 then p.x ||| b else p.x
    let z := if id = 2 ∨ id = 3 then p.z ||| b else p.z
    pure ⟨p.coef, x, z⟩

/-- the loops of the constructors: identities are skipped, everything else is added -/
def PauliOp.addAll : PauliOp → List (Nat × Nat) → Res PauliOp
  | p, [] => .ok p
  | p, (q, id) :: rest => if id ≠ 0 then do
      let p ← p.addSingle q id
      p.addAll rest
    else p.addAll rest

/-- /repo/src/operator/pauli_operator.cpp:31-46, constructor from qubits and Pauli ids. -/
def PauliOp.ofLists (targets ids : List Nat) (coef : ℂ) : Res PauliOp :=
  if targets.length ≠ ids.length then
    .error (.throw "PauliOperator::PauliOperator: target_qubit_list must have same size to pauli_id_list")
  else PauliOp.addAll ⟨coef, 0, 0⟩ (targets.zip ids)

/-- /repo/src/operator/pauli_operator.cpp:48-57, constructor from one Pauli id per qubit. -/
def PauliOp.ofIds (ids : List Nat) (coef : ℂ) : Res PauliOp :=
  PauliOp.addAll ⟨coef, 0, 0⟩ ((List.range ids.length).zip ids)

/-- /repo/src/operator/pauli_operator.cpp:80-83 `target_qubit_list`. -/
def PauliOp.targetList (p : PauliOp) : List Nat := maskToVector (p.x ||| p.z)

/-- /repo/src/operator/pauli_operator.cpp:84-99 `pauli_id_list`: the loop over the set bits in the same order as
`mask_to_vector`. -/
def PauliOp.idList (p : PauliOp) : List Nat :=
  (maskToVector (p.x ||| p.z)).flatMap fun q =>
    if ((p.x &&& p.z) >>> q) &&& 1#64 ≠ 0 then [2]
    else if (p.x >>> q) &&& 1#64 ≠ 0 then [1]
    else if (p.z >>> q) &&& 1#64 ≠ 0 then [3]
    else []

/-- /repo/src/operator/pauli_operator.cpp:130-133 `get_dagger`. -/
noncomputable def PauliOp.dagger (p : PauliOp) : PauliOp := ⟨(starRingEnd ℂ) p.coef, p.x, p.z⟩

/-- /repo/include/scaluq/operator/pauli_operator.hpp:78-98 `operator*`; the counter is a signed `int`
(C++ `%` truncates towards zero = `Int.tmod`). -/
noncomputable def PauliOp.mul (p r : PauliOp) : PauliOp :=
  let xl := p.x &&& ~~~p.z
  let yl := p.x &&& p.z
  let zl := p.z &&& ~~~p.x
  let xr := r.x &&& ~~~r.z
  let yr := r.x &&& r.z
  let zr := r.z &&& ~~~r.x
  let cnt : Int := popcount (xl &&& yr) + popcount (yl &&& zr) + popcount (zl &&& xr)
    - popcount (xl &&& zr) - popcount (yl &&& xr) - popcount (zl &&& yr)
  let cnt := cnt.tmod 4
  let cnt := if cnt < 0 then cnt + 4 else cnt
  ⟨p.coef * r.coef * phase90 cnt.toNat, p.x ^^^ r.x, p.z ^^^ r.z⟩

/-- /repo/include/scaluq/operator/pauli_operator.hpp:99-101 `operator*(coef)`. -/
noncomputable def PauliOp.scale (p : PauliOp) (c : ℂ) : PauliOp := ⟨p.coef * c, p.x, p.z⟩

/-- /repo/include/scaluq/operator/pauli_operator.hpp:50-53 `apply_to_state` (no bounds check). -/
def PauliOp.applyToState (p : PauliOp) (dim : Nat) : Device ℂ := applyPauli 0 0 p.x p.z p.coef dim

/-- /repo/src/operator/pauli_operator.cpp:135-174 `get_expectation_value` (single state of `dim` amplitudes). -/
noncomputable def PauliOp.expectation (p : PauliOp) (dim : Nat) (ψ : U64 → ℂ) : Res ℂ := do
  if p.x = 0 then do
    let res ← reduceSum (R := ℝ) dim fun i => do
      let a ← readAt dim ψ i
      let tmp := ((starRingEnd ℂ) a * a).re
      pure (if oddParity (i &&& p.z) then -tmp else tmp)
    pure (p.coef * (res : ℂ))
  else do
    let pivot := pivotOf p.x
    let globalPhase := phase90 (popcount (p.x &&& p.z))
    let res ← reduceSum (R := ℝ) (dim >>> 1) fun i => do
      let basis0 := insertZeroAt i pivot
      let basis1 := basis0 ^^^ p.x
      let a ← readAt dim ψ basis0
      let b ← readAt dim ψ basis1
      let tmp := (a * (starRingEnd ℂ) b * globalPhase * 2).re
      pure (if oddParity (basis0 &&& p.z) then -tmp else tmp)
    pure (p.coef * (res : ℂ))

/-- /repo/src/operator/pauli_operator.cpp:246-287 `get_transition_amplitude` (single states; `dim` is the size of
the bra, `dim'` of the ket; they are not compared). -/
noncomputable def PauliOp.transition (p : PauliOp) (dim dim' : Nat) (bra ket : U64 → ℂ) : Res ℂ := do
  if p.x = 0 then do
    let res ← reduceSum (R := ℂ) dim fun i => do
      let a ← readAt dim bra i
      let b ← readAt dim' ket i
      let tmp := (starRingEnd ℂ) a * b
      pure (if oddParity (i &&& p.z) then -tmp else tmp)
    pure (p.coef * res)
  else do
    let pivot := pivotOf p.x
    let globalPhase := phase90 (popcount (p.x &&& p.z))
    let res ← reduceSum (R := ℂ) (dim >>> 1) fun i => do
      let basis0 := insertZeroAt i pivot
      let basis1 := basis0 ^^^ p.x
      let bra1 ← readAt dim bra basis1
      let ket0 ← readAt dim' ket basis0
      let tmp1 := (starRingEnd ℂ) bra1 * ket0 * globalPhase
      let tmp1 := if oddParity (basis0 &&& p.z) then -tmp1 else tmp1
      let bra0 ← readAt dim bra basis0
      let ket1 ← readAt dim' ket basis1
      let tmp2 := (starRingEnd ℂ) bra0 * ket1 * globalPhase
      let tmp2 := if oddParity (basis1 &&& p.z) then -tmp2 else tmp2
      pure (tmp1 + tmp2)
    pure (p.coef * res)

/-- one entry `(row, column, value)` of a triplet list -/
structure Triplet where
  row : Nat
  col : Nat
  value : ℂ

/-- the loop of /repo/src/operator/pauli_operator.cpp:412-415 and 428-431: one triplet per row. -/
noncomputable def triplets (dim : Nat) (x z : U64) (rot : ℂ) : List Triplet :=
  (List.range dim).map fun index =>
    let sign : ℂ := ((1 - 2 * (popcount (BitVec.ofNat 64 index &&& z) % 2 : Nat) : Int) : ℂ)
    ⟨index, (BitVec.ofNat 64 index ^^^ x).toNat, rot * sign⟩

/-- the loop of /repo/src/operator/pauli_operator.cpp:398-404: the masks with the used qubits renumbered from `idx`. -/
def compressMasks (p : PauliOp) : List Nat → Nat → U64 × U64 → U64 × U64
  | [], _, m => m
  | q :: qs, idx, (bm, pm) =>
    compressMasks p qs (idx + 1)
      (if (p.x >>> q) &&& 1#64 ≠ 0 then bm ||| (1#64 <<< idx) else bm,
       if (p.z >>> q) &&& 1#64 ≠ 0 then pm ||| (1#64 <<< idx) else pm)

/-- `std::bit_width` -/
def bitWidth (m : U64) : Nat := if m = 0 then 0 else Nat.log2 m.toNat + 1

/-- /repo/src/operator/pauli_operator.cpp:395-417 `get_matrix_triplets_ignoring_coef`; `1ULL << 64` is undefined. -/
noncomputable def PauliOp.matrixTriplets (p : PauliOp) : Res (List Triplet) := do
  let (bm, pm) := compressMasks p (maskToVector (p.x ||| p.z)) 0 (0, 0)
  let rot := phaseM90 (popcount (p.x &&& p.z))
  let dim ← shl1 (bitWidth (bm ||| pm))
  pure (triplets dim.toNat bm pm rot)

/-- /repo/src/operator/pauli_operator.cpp:419-433 `get_full_matrix_triplets_ignoring_coef`. -/
noncomputable def PauliOp.fullTriplets (p : PauliOp) (n : Nat) : Res (List Triplet) := do
  let rot := phaseM90 (popcount (p.x &&& p.z))
  let dim ← shl1 n
  pure (triplets dim.toNat p.x p.z rot)

/-- `mat(row, col) = value` for every triplet on a zero `dim` x `dim` matrix; outside is undefined behaviour. -/
noncomputable def fillMatrix (dim : Nat) (ts : List Triplet) : Res (DMat ℂ) :=
  if ts.all (fun t => decide (t.row < dim ∧ t.col < dim)) then
    .ok ⟨dim, dim, ts.foldl (fun M t => fun r s => if r = t.row ∧ s = t.col then t.value else M r s) (fun _ _ => 0)⟩
  else .error (.ub "mat(row, col) out of range")

/-- /repo/src/operator/pauli_operator.cpp:435-446 `get_matrix`. -/
noncomputable def PauliOp.getMatrix (p : PauliOp) : Res (DMat ℂ) := do
  let ts ← p.matrixTriplets
  let dim ← shl1 (popcount (p.x ||| p.z))
  fillMatrix dim.toNat (ts.map fun t => ⟨t.row, t.col, t.value * p.coef⟩)

/-- /repo/src/operator/pauli_operator.cpp:460-470 `get_matrix_ignoring_coef`. -/
noncomputable def PauliOp.getMatrixIgnoringCoef (p : PauliOp) : Res (DMat ℂ) := do
  let ts ← p.matrixTriplets
  let dim ← shl1 (popcount (p.x ||| p.z))
  fillMatrix dim.toNat ts

/-- /repo/src/operator/pauli_operator.cpp:448-458 `get_full_matrix` (the coefficient is not used). -/
noncomputable def PauliOp.getFullMatrix (p : PauliOp) (n : Nat) : Res (DMat ℂ) := do
  let ts ← p.fullTriplets n
  let dim ← shl1 n
  fillMatrix dim.toNat ts

/-- /repo/src/operator/pauli_operator.cpp:472-482 `get_full_matrix_ignoring_coef`. -/
noncomputable def PauliOp.getFullMatrixIgnoringCoef (p : PauliOp) (n : Nat) : Res (DMat ℂ) := do
  let ts ← p.fullTriplets n
  let dim ← shl1 n
  fillMatrix dim.toNat ts

/-! ## Pauli and Pauli rotation gates -/

/-- A Pauli gate object (/repo/include/scaluq/gate/gate_pauli.hpp:12-22). -/
structure PauliGate where
  p : PauliOp
  o : Operands

/-- The operand handling shared by /repo/include/scaluq/gate/gate_factory.hpp:313-336 and the constructors
/repo/include/scaluq/gate/gate_pauli.hpp:17-22 and 64-71.  `vector_to_mask<false>` of the target list of the Pauli
operator is `x | z` again (`maskToVector_spec`). -/
def mkPauli (p : PauliOp) (controls values : List Nat) : Res PauliGate := do
  let values ← resizeAndCheckControlValues controls values
  let c ← vectorToMask controls
  let v ← vectorToMask2 controls values 0
  let o ← gateBase (p.x ||| p.z) c v
  pure ⟨p, o⟩

/-- /repo/src/gate/gate_pauli.cpp:18-28 `PauliGateImpl::update_quantum_state` (no bounds check). -/
def pauliUpdate (B n : Nat) (g : PauliGate) : Res (Device ℂ) :=
  pure (applyPauli g.o.c g.o.v g.p.x g.p.z g.p.coef (B * 2 ^ n))

/-- /repo/src/gate/gate_pauli.cpp:63-75 `PauliRotationGateImpl::update_quantum_state` (no bounds check). -/
noncomputable def pauliRotUpdate (B n : Nat) (g : PauliGate) (angle : ℝ) : Res (Device ℂ) :=
  pure (applyPauliRotation g.o.c g.o.v g.p.x g.p.z g.p.coef angle (B * 2 ^ n))

/-- /repo/src/gate/gate_pauli.cpp:41-49 `PauliRotationGateImpl::get_matrix`. -/
noncomputable def pauliRotGetMatrix (g : PauliGate) (angle : ℝ) : Res (DMat ℂ) := do
  let mat ← g.p.getMatrixIgnoringCoef
  let trueAngle : ℂ := angle * g.p.coef
  let half := trueAngle / 2
  pure ⟨mat.rows, mat.cols, fun r s =>
    Complex.cos (-half) * (if r = s then 1 else 0) + imagUnit * Complex.sin (-half) * mat.entry r s⟩

end Verif.Model
