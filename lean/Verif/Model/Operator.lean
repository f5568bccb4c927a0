import Verif.Model.PauliBatch
import Verif.Core.Slots

/-!
# Operators: sums of Pauli operators

Model of /repo/src/operator/operator.cpp and /repo/include/scaluq/operator/operator.hpp.  The array of terms
(`Kokkos::View<PauliOperator*>`) is a list.  The `parallel_for` loops of the arithmetic write `ret._terms(i)` from
`_terms(i)` for pairwise different `i` and are maps over the list.  Sharing of one array between two operator objects
(copy constructor, `operator+()`) is the subject of `Model/OpHandle`.
-/

namespace Verif.Model
open Verif

/-- /repo/include/scaluq/operator/operator.hpp:117-119. -/
structure Op where
  terms : List PauliOp
  hermitian : Bool := true
  isView : Bool := false

/-- the loop `if (term.coef().imag() != 0) { _is_hermitian = false; break; }` (/repo/src/operator/operator.cpp:12-17, 49-54) -/
noncomputable def realCoefs (ts : List PauliOp) : Bool := ts.all fun p => decide (p.coef.im = 0)

/-- /repo/src/operator/operator.cpp:7-18, constructor. -/
noncomputable def Op.ofTerms (ts : List PauliOp) : Op := ⟨ts, realCoefs ts, false⟩

/-- /repo/src/operator/operator.cpp:20-27 `copy`. -/
def Op.copy (o : Op) : Op := ⟨o.terms, o.hermitian, false⟩

/-- /repo/src/operator/operator.cpp:39-55 `load`. -/
noncomputable def Op.load (o : Op) (ts : List PauliOp) : Res Op :=
  if ts.length ≠ o.terms.length then
    .error (.throw "Operator::load: size of terms does not match the current operator size.")
  else .ok ⟨ts, realCoefs ts, o.isView⟩

/-- the order of the keys of `std::map<std::tuple<uint64_t, uint64_t>, ...>` -/
def keyLt (a b : U64 × U64) : Bool := a.1.ult b.1 || (a.1 == b.1 && a.2.ult b.2)

/-- `pauli_and_coef[key] += c` on the sorted contents of a `std::map` (a new key starts from 0) -/
noncomputable def mapAdd (k : U64 × U64) (c : ℂ) : List ((U64 × U64) × ℂ) → List ((U64 × U64) × ℂ)
  | [] => [(k, 0 + c)]
  | (k', c') :: rest =>
    if k = k' then (k', c' + c) :: rest
    else if keyLt k k' then (k, 0 + c) :: (k', c') :: rest
    else (k', c') :: mapAdd k c rest

/-- /repo/src/operator/operator.cpp:57-75 `optimize`. -/
noncomputable def Op.optimize (o : Op) : Res Op :=
  if o.isView then .error (.throw "Operator::optimize: this operation is not allowed for a view operator.")
  else
    let m := o.terms.foldl (fun m p => mapAdd (p.x, p.z) p.coef m) []
    .ok (Op.ofTerms (m.map fun e => ⟨e.2, e.1.1, e.1.2⟩))

/-- /repo/src/operator/operator.cpp:77-89 `get_dagger`. -/
noncomputable def Op.dagger (o : Op) : Op := ⟨o.terms.map PauliOp.dagger, o.hermitian, false⟩

/-- `mat(row, col) += value` for every triplet; outside the matrix is undefined behaviour -/
noncomputable def addTriplets (dim : Nat) (M : Nat → Nat → ℂ) (ts : List Triplet) : Res (Nat → Nat → ℂ) :=
  if ts.all (fun t => decide (t.row < dim ∧ t.col < dim)) then
    .ok (ts.foldl (fun M t => fun r s => if r = t.row ∧ s = t.col then M r s + t.value else M r s) M)
  else .error (.ub "mat(row, col) out of range")

/-- /repo/src/operator/operator.cpp:91-104 `get_full_matrix`. -/
noncomputable def Op.getFullMatrix (o : Op) (n : Nat) : Res (DMat ℂ) := do
  let dim ← shl1 n
  let M ← o.terms.foldlM (fun M p => do
    let ts ← p.fullTriplets n
    addTriplets dim.toNat M (ts.map fun t => ⟨t.row, t.col, t.value * p.coef⟩)) (fun _ _ => 0)
  pure ⟨dim.toNat, dim.toNat, M⟩

/-! ## application to a state -/

/-- The team body of /repo/include/scaluq/operator/apply_pauli.hpp:66-105 (`apply_pauli` with one operator per slot); the text
is that of `apply_pauli` for a single operator with `states._raw(batch_id, ·)`. -/
noncomputable def pauliLaunch (c v x z : U64) (coef : ℂ) (dim : Nat) : Launch ℂ :=
  if x = 0 then ⟨_, pauliDiag c v z coef dim⟩
  else ⟨_, pauliFlip c v x z (phaseM90 (popcount (x &&& z))) coef dim⟩

/-- /repo/include/scaluq/operator/apply_pauli.hpp:58-106 `apply_pauli` with one operator per slot of a batch of states. -/
noncomputable def applyPauliSlots (c v : U64) (ops : List PauliOp) (dim : Nat) :
    Pool ((b : Fin ops.length) × Fin (pauliLaunch c v ops[b].x ops[b].z ops[b].coef dim).N) (Nat × U64) ℂ :=
  slotPool fun b : Fin ops.length => pauliLaunch c v ops[b].x ops[b].z ops[b].coef dim

/-- /repo/src/operator/operator.cpp:106-114 `apply_to_state` on a state of `dim` amplitudes `ψ`, ending in `ψ'`:
`set_state_vector` copies `ψ` into every slot of a batch with one slot per term
(/repo/src/state/state_vector_batched.cpp:31-44), `apply_pauli` runs on the batch under every schedule, and
`get_reduced_state` adds the slots (state_vector_batched.cpp:517-535). -/
def Op.Applies (o : Op) (dim : Nat) (ψ ψ' : U64 → ℂ) : Prop :=
  ∃ m' : Nat × U64 → ℂ,
    Runs (InBatch o.terms.length dim) (applyPauliSlots 0 0 o.terms dim) (fun p => ψ p.2) m' ∧
    ∀ i, ψ' i = if i.toNat < dim then ((List.range o.terms.length).map fun b => m' (b, i)).sum else ψ i

/-! ## expectation values and transition amplitudes -/

/-- `parallel_reduce` over a two-dimensional range (`MDRangePolicy` / `TeamThreadMDRange`), first index over the terms.
The order in which contributions are joined is unspecified and does not matter (`reducePairs_perm`). -/
def reducePairs {α R : Type} [Add R] [Zero R] (l : List (α × Nat)) (f : α → U64 → Res R) : Res R :=
  l.foldlM (fun acc w => do let x ← f w.1 (BitVec.ofNat 64 w.2); pure (acc + x)) 0

/-- all pairs (term, state index) -/
def termRange (ts : List PauliOp) (N : Nat) : List (PauliOp × Nat) := ts.flatMap fun p => (List.range N).map fun i => (p, i)

/-- the work item of /repo/src/operator/operator.cpp:126-157 (also 192-227 and 262-288). -/
noncomputable def expItem (dim : Nat) (ψ : U64 → ℂ) (p : PauliOp) (i : U64) : Res ℂ :=
  if p.x = 0 then do
    let i1 := i <<< 1
    let a ← readAt dim ψ i1
    let tmp1 := ((starRingEnd ℂ) a * a).re
    let tmp1 := if oddParity (i1 &&& p.z) then -tmp1 else tmp1
    let i2 := i1 ||| 1
    let b ← readAt dim ψ i2
    let tmp2 := ((starRingEnd ℂ) b * b).re
    let tmp2 := if oddParity (i2 &&& p.z) then -tmp2 else tmp2
    pure (p.coef * ((tmp1 + tmp2 : ℝ) : ℂ))
  else do
    let basis0 := insertZeroAt i (pivotOf p.x)
    let basis1 := basis0 ^^^ p.x
    let a ← readAt dim ψ basis0
    let b ← readAt dim ψ basis1
    let tmp := (a * (starRingEnd ℂ) b * phase90 (popcount (p.x &&& p.z)) * 2).re
    let tmp := if oddParity (basis0 &&& p.z) then -tmp else tmp
    pure (p.coef * (tmp : ℂ))

/-- /repo/src/operator/operator.cpp:116-160 `get_expectation_value` (single state): `dim >> 1` work items per term. -/
noncomputable def Op.expectation (o : Op) (dim : Nat) (ψ : U64 → ℂ) : Res ℂ :=
  reducePairs (termRange o.terms (dim >>> 1)) (expItem dim ψ)

/-- `static_cast<int>(x)` of an unsigned 64-bit number -/
def toInt32 (x : Nat) : Int := (BitVec.ofNat 32 x).toInt

/-- /repo/src/operator/operator.cpp:163-238 `get_expectation_values`: one value per term; the number of teams and of work items
per team are cast to `int` (a loop to a non-positive bound does nothing).  The result array is zero-initialised. -/
noncomputable def Op.expectationValues (o : Op) (dim : Nat) (ψ : U64 → ℂ) : Res (List ℂ) := do
  let done ← (o.terms.take (toInt32 o.terms.length).toNat).mapM fun p =>
    reduceSum (toInt32 (dim >>> 1)).toNat (fun i => expItem dim ψ p i)
  pure (done ++ List.replicate (o.terms.length - done.length) 0)

/-- /repo/src/operator/operator.cpp:240-298 `get_expectation_value` (batch of states). -/
noncomputable def Op.expectationBatched (o : Op) (s : Batch) : Res (List ℂ) :=
  perSlot s.size fun b => reducePairs (termRange o.terms (2 ^ s.n >>> 1)) (expItem (2 ^ s.n) (s.raw b))

/-- the work item of /repo/src/operator/operator.cpp:317-346 (also 378-411, /repo/src/operator/operator_batched.cpp:83-114,
143-176, 218-248, 293-326). -/
noncomputable def transItem (dim : Nat) (bra ket : U64 → ℂ) (p : PauliOp) (i : U64) : Res ℂ :=
  if p.x = 0 then do
    let i1 := i <<< 1
    let a ← readAt dim bra i1
    let b ← readAt dim ket i1
    let tmp1 := (starRingEnd ℂ) a * b
    let tmp1 := if oddParity (i1 &&& p.z) then -tmp1 else tmp1
    let i2 := i1 ||| 1
    let a ← readAt dim bra i2
    let b ← readAt dim ket i2
    let tmp2 := (starRingEnd ℂ) a * b
    let tmp2 := if oddParity (i2 &&& p.z) then -tmp2 else tmp2
    pure (p.coef * (tmp1 + tmp2))
  else do
    let basis0 := insertZeroAt i (pivotOf p.x)
    let basis1 := basis0 ^^^ p.x
    let globalPhase := phase90 (popcount (p.x &&& p.z))
    let bra1 ← readAt dim bra basis1
    let ket0 ← readAt dim ket basis0
    let tmp1 := (starRingEnd ℂ) bra1 * ket0 * globalPhase
    let tmp1 := if oddParity (basis0 &&& p.z) then -tmp1 else tmp1
    let bra0 ← readAt dim bra basis0
    let ket1 ← readAt dim ket basis1
    let tmp2 := (starRingEnd ℂ) bra0 * ket1 * globalPhase
    let tmp2 := if oddParity (basis1 &&& p.z) then -tmp2 else tmp2
    pure (p.coef * (tmp1 + tmp2))

/-- /repo/src/operator/operator.cpp:300-349 `get_transition_amplitude` (single states of `n` and `n'` qubits). -/
noncomputable def Op.transition (o : Op) (n n' : Nat) (bra ket : U64 → ℂ) : Res ℂ :=
  if n ≠ n' then
    .error (.throw "Operator::get_transition_amplitude: n_qubits of state_vector_bra and state_vector_ket must be same")
  else reducePairs (termRange o.terms (2 ^ n >>> 1)) (transItem (2 ^ n) bra ket)

/-- /repo/src/operator/operator.cpp:351-424 `get_transition_amplitude` (batches). -/
noncomputable def Op.transitionBatched (o : Op) (bra ket : Batch) : Res (List ℂ) :=
  if bra.n ≠ ket.n then
    .error (.throw "Operator::get_transition_amplitude: n_qubits of state_vector_bra and state_vector_ket must be same")
  else if bra.size ≠ ket.size then
    .error (.throw "Operator::get_transition_amplitude: batch_size of state_vector_bra and state_vector_ket must be same")
  else perSlot bra.size fun b =>
    reducePairs (termRange o.terms (2 ^ bra.n >>> 1)) (transItem (2 ^ bra.n) (bra.raw b) (ket.raw b))

/-! ## arithmetic -/

/-- /repo/src/operator/operator.cpp:557-566 `operator*=(coef)`. -/
noncomputable def Op.scaleAssign (o : Op) (c : ℂ) : Op :=
  ⟨o.terms.map fun p => p.scale c, o.hermitian && decide (c.im = 0), o.isView⟩

/-- /repo/src/operator/operator.cpp:568-572 `operator*(coef)`. -/
noncomputable def Op.scale (o : Op) (c : ℂ) : Op := o.copy.scaleAssign c

/-- /repo/include/scaluq/operator/operator.hpp:83 unary `operator-`. -/
noncomputable def Op.neg (o : Op) : Op := o.scale (-1)

/-- /repo/src/operator/operator.cpp:574-593 `operator*(Operator)`: term `i * |target| + j` is the product of term `i` and
target term `j`; `nnz_count` counts the products with imaginary part equal to zero. -/
noncomputable def Op.mul (o t : Op) : Op :=
  let prods := o.terms.flatMap fun a => t.terms.map fun b => a.mul b
  let nnz := (prods.filter fun p => decide (p.coef.im = 0)).length
  ⟨prods, decide (nnz = 0), false⟩

/-- /repo/src/operator/operator.cpp:595-604 `operator*=(PauliOperator)`. -/
noncomputable def Op.mulPauliAssign (o : Op) (p : PauliOp) : Op :=
  ⟨o.terms.map fun a => a.mul p, o.hermitian && decide (p.coef.im = 0), o.isView⟩

/-- /repo/src/operator/operator.cpp:606-610 `operator*(PauliOperator)`. -/
noncomputable def Op.mulPauli (o : Op) (p : PauliOp) : Op := o.copy.mulPauliAssign p

/-- /repo/src/operator/operator.cpp:612-631 `operator+(Operator)`. -/
def Op.add (o t : Op) : Op := ⟨o.terms ++ t.terms, o.hermitian && t.hermitian, false⟩

/-- /repo/src/operator/operator.cpp:633-650 `operator+(PauliOperator)`. -/
noncomputable def Op.addPauli (o : Op) (p : PauliOp) : Op :=
  ⟨o.terms ++ [p], o.hermitian && decide (p.coef.im = 0), false⟩

/-- /repo/include/scaluq/operator/operator.hpp:85 `operator-(Operator)`. -/
noncomputable def Op.sub (o t : Op) : Op := o.add (t.scale (-1))

/-- /repo/include/scaluq/operator/operator.hpp:88 `operator-(PauliOperator)`. -/
noncomputable def Op.subPauli (o : Op) (p : PauliOp) : Op := o.addPauli (p.scale (-1))

end Verif.Model
