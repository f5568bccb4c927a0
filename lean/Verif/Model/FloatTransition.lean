import Verif.Model.FloatReduce

/-!
# Transition amplitudes, and readings of Pauli operators, in floating-point arithmetic

`get_transition_amplitude` of operators (/repo/src/operator/operator.cpp:300-424), `get_expectation_value` of operators for batches
(/repo/src/operator/operator.cpp:240-298), and both functions of Pauli operators (/repo/src/operator/pauli_operator.cpp:135-175, 244-287).  The
arithmetic of the type `F` and the order of the additions are left open, as in `Verif.Model.FloatReduce`.
-/

namespace Verif.Model
open Verif

section
variable {R F : Type} [Zero F] [One F] [Add F] [Sub F] [Mul F] [Neg F] [Zero R] [Add R] [Sub R] [Mul R] [Neg R] [Cplx R F] (lib : FloatLib F)

/-- the work item of /repo/src/operator/operator.cpp:317-346 (also 378-411), as `transItem` -/
def transItemF (dim : Nat) (bra ket : U64 → R) (p : PauliOp) (i : U64) : Res R :=
  if p.x = 0 then do
    let i1 := i <<< 1
    let a ← readAt dim bra i1
    let b ← readAt dim ket i1
    let tmp1 := conjC a * b
    let tmp1 := if oddParity (i1 &&& p.z) then -tmp1 else tmp1
    let i2 := i1 ||| 1
    let a ← readAt dim bra i2
    let b ← readAt dim ket i2
    let tmp2 := conjC a * b
    let tmp2 := if oddParity (i2 &&& p.z) then -tmp2 else tmp2
    pure (castC lib p.coef * (tmp1 + tmp2))
  else do
    let basis0 := insertZeroAt i (pivotOf p.x)
    let basis1 := basis0 ^^^ p.x
    let globalPhase := phase90F (popcount (p.x &&& p.z))
    let bra1 ← readAt dim bra basis1
    let ket0 ← readAt dim ket basis0
    let tmp1 := conjC bra1 * ket0 * globalPhase
    let tmp1 := if oddParity (basis0 &&& p.z) then -tmp1 else tmp1
    let bra0 ← readAt dim bra basis0
    let ket1 ← readAt dim ket basis1
    let tmp2 := conjC bra0 * ket1 * globalPhase
    let tmp2 := if oddParity (basis1 &&& p.z) then -tmp2 else tmp2
    pure (castC lib p.coef * (tmp1 + tmp2))

/-- the reduction of /repo/src/operator/operator.cpp:312-347 -/
def Op.TransitionSumF (o : Op) (dim : Nat) (bra ket : U64 → R) : Res R → Prop :=
  Reduction (termRange o.terms (dim >>> 1)) fun w => transItemF lib dim bra ket w.1 (BitVec.ofNat 64 w.2)

/-- /repo/src/operator/operator.cpp:300-349 `get_transition_amplitude` (single states of `n` and `n'` qubits) -/
def Op.TransitionF (o : Op) (n n' : Nat) (bra ket : U64 → R) (r : Res R) : Prop :=
  if n ≠ n' then
    r = .error (.throw "Operator::get_transition_amplitude: n_qubits of state_vector_bra and state_vector_ket must be same")
  else o.TransitionSumF lib (2 ^ n) bra ket r

/-- The reductions of `B` teams, one for every state of a batch (/repo/src/operator/operator.cpp:246-294, 366-419): a list of outcomes, or the fault
of one of them. -/
def PerSlotF (B : Nat) (Out : Nat → Res R → Prop) : Res (List R) → Prop
  | .ok l => ∃ h : l.length = B, ∀ b : Fin B, Out b.val (.ok (l[b.val]'(by omega)))
  | .error e => ∃ b : Fin B, Out b.val (.error e)

/-- /repo/src/operator/operator.cpp:240-298 `get_expectation_value` (batch of `B` states of `n` qubits) -/
def Op.ExpectationBatchedF (o : Op) (n B : Nat) (ψ : Nat → U64 → R) : Res (List R) → Prop :=
  PerSlotF B fun b => Op.ExpectationF lib o (2 ^ n) (ψ b)

/-- /repo/src/operator/operator.cpp:351-424 `get_transition_amplitude` (batches of `B` states of `n` qubits and `B'` states of `n'` qubits) -/
def Op.TransitionBatchedF (o : Op) (n n' B B' : Nat) (bra ket : Nat → U64 → R) (r : Res (List R)) : Prop :=
  if n ≠ n' then
    r = .error (.throw "Operator::get_transition_amplitude: n_qubits of state_vector_bra and state_vector_ket must be same")
  else if B ≠ B' then
    r = .error (.throw "Operator::get_transition_amplitude: batch_size of state_vector_bra and state_vector_ket must be same")
  else PerSlotF B (fun b => o.TransitionSumF lib (2 ^ n) (bra b) (ket b)) r

/-- the work items of /repo/src/operator/pauli_operator.cpp:143-151 and 161-170 -/
def pauliExpItemF (dim : Nat) (ψ : U64 → R) (p : PauliOp) (i : U64) : Res F :=
  if p.x = 0 then do
    let a ← readAt dim ψ i
    let tmp : F := Cplx.re (conjC a * a)
    pure (if oddParity (i &&& p.z) then -tmp else tmp)
  else do
    let basis0 := insertZeroAt i (pivotOf p.x)
    let basis1 := basis0 ^^^ p.x
    let a ← readAt dim ψ basis0
    let b ← readAt dim ψ basis1
    let tmp : F := Cplx.re (timesC (a * conjC b * phase90F (popcount (p.x &&& p.z))) (lib.cast 2))
    pure (if oddParity (basis0 &&& p.z) then -tmp else tmp)

/-- /repo/src/operator/pauli_operator.cpp:135-175 `get_expectation_value` (single state): the coefficient multiplies the sum -/
def PauliOp.ExpectationF (p : PauliOp) (dim : Nat) (ψ : U64 → R) (r : Res R) : Prop :=
  ∃ s : Res F, RangeReduction (if p.x = 0 then dim else dim >>> 1) (pauliExpItemF lib dim ψ p) s ∧ r = s.map (timesC (castC lib p.coef))

/-- the work items of /repo/src/operator/pauli_operator.cpp:256-262 and 272-284 (`dim`, `dim'` the sizes of the bra and the ket) -/
def pauliTransItemF (dim dim' : Nat) (bra ket : U64 → R) (p : PauliOp) (i : U64) : Res R :=
  if p.x = 0 then do
    let a ← readAt dim bra i
    let b ← readAt dim' ket i
    let tmp := conjC a * b
    pure (if oddParity (i &&& p.z) then -tmp else tmp)
  else do
    let basis0 := insertZeroAt i (pivotOf p.x)
    let basis1 := basis0 ^^^ p.x
    let globalPhase := phase90F (popcount (p.x &&& p.z))
    let bra1 ← readAt dim bra basis1
    let ket0 ← readAt dim' ket basis0
    let tmp1 := conjC bra1 * ket0 * globalPhase
    let tmp1 := if oddParity (basis0 &&& p.z) then -tmp1 else tmp1
    let bra0 ← readAt dim bra basis0
    let ket1 ← readAt dim' ket basis1
    let tmp2 := conjC bra0 * ket1 * globalPhase
    let tmp2 := if oddParity (basis1 &&& p.z) then -tmp2 else tmp2
    pure (tmp1 + tmp2)

/-- /repo/src/operator/pauli_operator.cpp:244-287 `get_transition_amplitude` (single states; the sizes are not compared) -/
def PauliOp.TransitionF (p : PauliOp) (dim dim' : Nat) (bra ket : U64 → R) (r : Res R) : Prop :=
  ∃ s : Res R, RangeReduction (if p.x = 0 then dim else dim >>> 1) (pauliTransItemF dim dim' bra ket p) s ∧ r = s.map fun z => castC lib p.coef * z

end

end Verif.Model
