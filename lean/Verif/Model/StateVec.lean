import Verif.Model.PauliBatch
import Verif.Core.Shared
import Mathlib.Analysis.SpecialFunctions.Log.Base

/-!
# State vectors

Model of /repo/src/state/state_vector.cpp and the corresponding functions of /repo/src/state/state_vector_batched.cpp.
A state of `n` qubits is a function from indices to amplitudes, of which the first `2 ^ n` are allocated.  Random numbers
are inputs.  A division by a zero norm produces NaN in the code; here it is a fault.
-/

namespace Verif.Model
open Verif

/-! ## reading -/

/-- `internal::squared_norm(_raw[i])` -/
noncomputable def readSq (dim : Nat) (ψ : U64 → ℂ) (i : U64) : Res ℝ := do
  let a ← readAt dim ψ i
  pure (Complex.normSq a)

/-- /repo/src/state/state_vector.cpp:109-120 `get_squared_norm`. -/
noncomputable def squaredNorm (n : Nat) (ψ : U64 → ℂ) : Res ℝ := reduceSum (2 ^ n) (readSq (2 ^ n) ψ)

/-- /repo/src/state/state_vector_batched.cpp:247-273 `get_squared_norm` (one reduction per team). -/
noncomputable def Batch.squaredNorm (s : Batch) : Res (List ℝ) := perSlot s.size fun b => Model.squaredNorm s.n (s.raw b)

/-- /repo/src/state/state_vector.cpp:129-146 `get_zero_probability`. -/
noncomputable def zeroProbability (n q : Nat) (ψ : U64 → ℂ) : Res ℝ :=
  if q ≥ n then .error (.throw "Error: StateVector::get_zero_probability(std::uint64_t): index of target qubit must be smaller than qubit_count")
  else reduceSum ((2 ^ n) >>> 1) fun i => readSq (2 ^ n) ψ (insertZeroAt i q)

/-- /repo/src/state/state_vector_batched.cpp:298-331 `get_zero_probability`. -/
noncomputable def Batch.zeroProbability (s : Batch) (q : Nat) : Res (List ℝ) :=
  if q ≥ s.n then .error (.throw "Error: StateVectorBatched::get_zero_probability(std::uint64_t): index of target qubit must be smaller than qubit_count")
  else perSlot s.size fun b => reduceSum ((2 ^ s.n) >>> 1) fun i => readSq (2 ^ s.n) (s.raw b) (insertZeroAt i q)

/-- the loop over `measured_values` (/repo/src/state/state_vector.cpp:157-170) collecting the measured qubits with their
values; `i` is the loop index.  `StateVector::UNMEASURED` is 2 (/repo/include/scaluq/state/state_vector.hpp:30). -/
def measuredTargets : Nat → List Nat → Res (List (Nat × Nat))
  | _, [] => .ok []
  | i, v :: vs =>
    if v = 0 ∨ v = 1 then do
      let r ← measuredTargets (i + 1) vs
      pure ((i, v) :: r)
    else if v ≠ 2 then .error (.throw "Error: StateVector::get_marginal_probability(const vector<std::uint64_t>&): Invalid qubit state specified.")
    else measuredTargets (i + 1) vs

/-- the loop over `cursor` (/repo/src/state/state_vector.cpp:180-185) -/
def insertValues (basis : U64) (targets : List (Nat × Nat)) : U64 :=
  targets.foldl (fun b t => insertZeroAt b t.1 ||| (BitVec.ofNat 64 t.2 <<< t.1)) basis

/-- the same loop of the batched version, with `^=` instead of `|=` (/repo/src/state/state_vector_batched.cpp:370-377, loop over `cursor`
in `get_marginal_probability`) -/
def insertValuesXor (basis : U64) (targets : List (Nat × Nat)) : U64 :=
  targets.foldl (fun b t => insertZeroAt b t.1 ^^^ (BitVec.ofNat 64 t.2 <<< t.1)) basis

/-- /repo/src/state/state_vector.cpp:147-190 `get_marginal_probability`. -/
noncomputable def marginalProbability (n : Nat) (ψ : U64 → ℂ) (measured : List Nat) : Res ℝ :=
  if measured.length ≠ n then .error (.throw "Error: StateVector::get_marginal_probability(const vector<std::uint64_t>&): the length of measured_values must be equal to qubit_count")
  else do
    let targets ← measuredTargets 0 measured
    reduceSum ((2 ^ n) >>> targets.length) fun i => readSq (2 ^ n) ψ (insertValues i targets)

/-- /repo/src/state/state_vector_batched.cpp:333-389 `get_marginal_probability`. -/
noncomputable def Batch.marginalProbability (s : Batch) (measured : List Nat) : Res (List ℝ) :=
  if measured.length ≠ s.n then .error (.throw "Error: StateVectorBatched::get_marginal_probability(const vector<std::uint64_t>&): the length of measured_values must be equal to qubit_count")
  else do
    let targets ← measuredTargets 0 measured
    perSlot s.size fun b =>
      reduceSum ((2 ^ s.n) >>> targets.length) fun i => readSq (2 ^ s.n) (s.raw b) (insertValuesXor i targets)

/-- /repo/src/state/state_vector.cpp:191-205 `get_computational_basis_entropy`. -/
noncomputable def entropy (n : Nat) (ψ : U64 → ℂ) : Res ℝ :=
  reduceSum (2 ^ n) fun i => do
    let prob ← readSq (2 ^ n) ψ i
    pure (if prob > 0 then -prob * Real.logb 2 prob else 0)

/-- /repo/src/state/state_vector_batched.cpp:391-419 `get_computational_basis_entropy`, with its `eps`. -/
noncomputable def Batch.entropy (s : Batch) : Res (List ℝ) :=
  perSlot s.size fun b => reduceSum (2 ^ s.n) fun i => do
    let p ← readSq (2 ^ s.n) (s.raw b) i
    let prob := max p (1 / 10 ^ 15)
    pure (-prob * Real.logb 2 prob)

/-- /repo/src/state/state_vector.cpp:341-348 `inner_product` with /repo/include/scaluq/util/utility.hpp:107-120. -/
noncomputable def innerProduct (n n' : Nat) (a b : U64 → ℂ) : Res ℂ :=
  if 2 ^ n ≠ 2 ^ n' then .error (.throw "Error: StateVector::inner_product: dimension mismatch")
  else reduceSum (2 ^ n) fun i => do
    let x ← readAt (2 ^ n) a i
    let y ← readAt (2 ^ n') b i
    pure ((starRingEnd ℂ) x * y)

/-! ## writing -/

/-- a kernel that replaces every amplitude `a` of `_raw` by `f i a` -/
def elementwise {R : Type} (dim : Nat) (f : U64 → R → R) : Pool (Fin dim) U64 R :=
  parallelFor dim fun i => do
    let a ← Prog.load i
    Prog.store i (f i a)

/-- a kernel that writes `f i` without reading -/
def fill {R : Type} (dim : Nat) (f : U64 → R) : Pool (Fin dim) U64 R := parallelFor dim fun i => Prog.store i (f i)

/-- /repo/src/state/state_vector.cpp:62-73 `set_computational_basis`; `set_zero_state` (48-53) is basis 0. -/
noncomputable def setBasis (n basis : Nat) : Res (Device ℂ) :=
  if basis ≥ 2 ^ n then .error (.throw "Error: StateVector::set_computational_basis(std::uint64_t): index of computational basis must be smaller than 2^qubit_count")
  else .ok (.par (2 ^ n) (fill (2 ^ n) fun i => if i = BitVec.ofNat 64 basis then 1 else 0))

/-- /repo/src/state/state_vector.cpp:54-57 `set_zero_norm_state`. -/
noncomputable def setZeroNorm (n : Nat) : Device ℂ := .par (2 ^ n) (fill (2 ^ n) fun _ => 0)

/-- /repo/src/state/state_vector.cpp:216-222 `multiply_coef`; with `B` states state_vector_batched.cpp `multiply_coef`. -/
noncomputable def multiplyCoef (B n : Nat) (c : ℂ) : Device ℂ := .par (B * 2 ^ n) (elementwise (B * 2 ^ n) fun _ a => a * c)

/-- /repo/src/state/state_vector.cpp:206-215 `add_state_vector_with_coef`: addresses `(false, i)` are `this->_raw`, `(true, i)` are
`state._raw`.  There is no comparison of the dimensions. -/
noncomputable def addWithCoef (dim : Nat) (c : ℂ) : Pool (Fin dim) (Bool × U64) ℂ :=
  parallelFor dim fun i => do
    let a ← Prog.load (false, i)
    let b ← Prog.load (true, i)
    Prog.store (false, i) (a + c * b)

/-- `add_state_vector_with_coef(c, φ)` on a state `ψ` of `n` qubits with a state `φ` of `n'` qubits leaves `ψ'` -/
def AddsWithCoef (n n' : Nat) (c : ℂ) (ψ φ ψ' : U64 → ℂ) : Prop :=
  Runs (fun p : Bool × U64 => p.2.toNat < if p.1 then 2 ^ n' else 2 ^ n) (addWithCoef (2 ^ n) c)
    (twoBuffers ψ φ) (twoBuffers ψ' φ)

/-- /repo/src/state/state_vector.cpp:121-128 `normalize` -/
noncomputable def normalizeDev (n : Nat) (ψ : U64 → ℂ) : Res (Device ℂ) := do
  let sq ← squaredNorm n ψ
  let norm := Real.sqrt sq
  if norm = 0 then .error (.ub "division by zero")
  else pure (.par (2 ^ n) (elementwise (2 ^ n) fun _ a => a / (norm : ℂ)))

/-- `normalize()` on `ψ` leaves `ψ'` -/
def Normalizes (n : Nat) (ψ ψ' : U64 → ℂ) : Prop :=
  ∃ dev, normalizeDev n ψ = .ok dev ∧ DRuns (2 ^ n) dev ψ ψ'

/-- /repo/src/state/state_vector_batched.cpp:275-296 `normalize`: every team normalises its own slot -/
def Batch.Normalizes (s s' : Batch) : Prop :=
  s'.n = s.n ∧ s'.size = s.size ∧ ∀ b, b < s.size → Model.Normalizes s.n (s.raw b) (s'.raw b)

/-! ## sampling -/

/-- /repo/src/state/state_vector.cpp:226-236: `stacked_prob`, zero-initialised with one element more than the state, filled by
an inclusive scan. -/
noncomputable def stackedProb (n : Nat) (ψ : U64 → ℂ) : List ℝ :=
  (List.range (2 ^ n)).scanl (fun acc i => acc + Complex.normSq (ψ (BitVec.ofNat 64 i))) 0

/-- the loop `while (hi - lo > 1)` (/repo/src/state/state_vector.cpp:252-260) -/
noncomputable def searchLoop (s : List ℝ) (r : ℝ) (lo hi : Nat) : Res Nat :=
  if _h : hi - lo > 1 then
    match s[(lo + hi) / 2]? with
    | none => .error (.ub "stacked_prob out of range")
    | some x => if x > r then searchLoop s r lo ((lo + hi) / 2) else searchLoop s r ((lo + hi) / 2) hi
  else .ok lo
termination_by hi - lo
decreasing_by all_goals omega

/-- one index drawn with the random number `r` -/
noncomputable def drawIndex (s : List ℝ) (r : ℝ) : Res Nat := searchLoop s r 0 s.length

/-- one round of the loop `while (!todo.empty())` (/repo/src/state/state_vector.cpp:242-277): `rnd i` is the random number of
work item `i`, `draw t r` the index found with the random number `r` for the place `t` of the result, `alloc t` whether the place
`t` exists; returns `next_todo` and `result`. -/
def sampleRound {κ : Type} [DecidableEq κ] (dim : Nat) (draw : κ → ℝ → Res Nat) (alloc : κ → Bool) (rnd : Nat → ℝ) :
    Nat → List κ → (κ → Nat) → Res (List κ × (κ → Nat))
  | _, [], result => .ok ([], result)
  | i, t :: todo, result => do
    let lo ← draw t (rnd i)
    if lo = dim then do
      let p ← sampleRound dim draw alloc rnd (i + 1) todo result
      pure (t :: p.1, p.2)
    else if alloc t then sampleRound dim draw alloc rnd (i + 1) todo (Function.update result t lo)
    else .error (.ub "result out of range")

/-- the whole loop; `rnd k i` is the random number of work item `i` of round `k` -/
inductive SampleLoop {κ : Type} [DecidableEq κ] (dim : Nat) (draw : κ → ℝ → Res Nat) (alloc : κ → Bool) (rnd : Nat → Nat → ℝ) :
    Nat → List κ → (κ → Nat) → (κ → Nat) → Prop
  | done (k : Nat) (result : κ → Nat) : SampleLoop dim draw alloc rnd k [] result result
  | step (k : Nat) (t : κ) (todo next : List κ) (result result' final : κ → Nat) :
      sampleRound dim draw alloc (rnd k) 0 (t :: todo) result = .ok (next, result') →
      SampleLoop dim draw alloc rnd (k + 1) next result' final → SampleLoop dim draw alloc rnd k (t :: todo) result final

/-- /repo/src/state/state_vector.cpp:223-278 `sampling` returns `final` when the random numbers are `rnd`. -/
def Samples (n : Nat) (ψ : U64 → ℂ) (count : Nat) (rnd : Nat → Nat → ℝ) (final : List Nat) : Prop :=
  ∃ result, SampleLoop (2 ^ n) (fun _ : Nat => drawIndex (stackedProb n ψ)) (fun t => decide (t < count)) rnd 0 (List.range count)
    (fun _ => 0) result ∧ final = (List.range count).map result

/-- /repo/src/state/state_vector_batched.cpp:117-193 `sampling`: one list of places `(batch, sample)` for all slots. -/
def Batch.Samples (s : Batch) (count : Nat) (rnd : Nat → Nat → ℝ) (final : List (List Nat)) : Prop :=
  ∃ result, SampleLoop (2 ^ s.n) (fun t : Nat × Nat => drawIndex (stackedProb s.n (s.raw t.1)))
    (fun t => decide (t.1 < s.size ∧ t.2 < count)) rnd 0
    ((List.range s.size).flatMap fun b => (List.range count).map fun j => (b, j)) (fun _ => 0) result ∧
    final = (List.range s.size).map fun b => (List.range count).map fun j => result (b, j)

end Verif.Model
