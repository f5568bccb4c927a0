import Verif.Model.StateVec
import Verif.Model.UGate

/-!
# Gates that use random numbers: measurement and probabilistic gates

Model of /repo/src/gate/gate_measurement.cpp, /repo/src/gate/gate_probabilistic.cpp, the classical registers
(/repo/include/scaluq/classical_register) and the noise factories.  The random engine is a stream of real numbers `rnd`, one per
call of a distribution object; `Context.pos` counts the calls so far.  A run ends in a context and possibly a fault, so that the
effects of a call that throws remain visible.
-/

namespace Verif.Model
open Verif Verif.Spec

/-- `ExecutionContext` (/repo/include/scaluq/gate/gate.hpp:206-217): the state, the classical register, the random engine -/
structure Context where
  psi : U64 → ℂ
  reg : List Bool
  pos : Nat

/-- a list of calls made one after another; a fault ends the sequence -/
inductive SeqRun {ι C : Type} (step : ι → C → C → Option Fault → Prop) : List ι → C → C → Option Fault → Prop
  | nil (c : C) : SeqRun step [] c c none
  | cons (i : ι) (is : List ι) (c c1 c2 : C) (f : Option Fault) :
      step i c c1 none → SeqRun step is c1 c2 f → SeqRun step (i :: is) c c2 f
  | stop (i : ι) (is : List ι) (c c1 : C) (e : Fault) : step i c c1 (some e) → SeqRun step (i :: is) c c1 (some e)

/-- a gate without randomness applied in a context; faults of `UGate.update` come before any launch -/
def UGate.RunsOn (L n : Nat) (g : UGate) (c c' : Context) (f : Option Fault) : Prop :=
  match g.update L 1 n with
  | .error e => c' = c ∧ f = some e
  | .ok dev => f = none ∧ c'.reg = c.reg ∧ c'.pos = c.pos ∧ DRuns (1 * 2 ^ n) dev c.psi c'.psi

/-! ## updates through a view

`view_state_vector_at(b)` is a `StateVector` whose `_raw` refers to the memory of the batch
(/repo/src/state/state_vector_batched.cpp:65-74).  Kernels that end with `std::swap(state._raw, update._raw)` put the new
amplitudes into another buffer and leave the memory of the batch as it was. -/

/-- the gates whose kernel ends with `std::swap(state._raw, update._raw)`: `multi_dense_matrix_gate`
(/repo/src/gate/update_ops_matrix.cpp:262; chosen at /repo/src/gate/gate_matrix.cpp:6-37, 103-146) and `sparse_matrix_gate`
(/repo/src/gate/update_ops_matrix.cpp:319) -/
def UGate.swapsBuffer : UGate → Bool
  | .dense g => !(g.mat.rows == 1 && g.mat.cols == 1 || g.mat.rows == 2 && g.mat.cols == 2 || g.mat.rows == 4 && g.mat.cols == 4)
  | .sparse _ => true
  | _ => false

/-- a gate without randomness applied to a view: `c.psi`, `c'.psi` are the memory of the batch before and after -/
def UGate.RunsOnView (L n : Nat) (g : UGate) (c c' : Context) (f : Option Fault) : Prop :=
  ∃ d, g.RunsOn L n c d f ∧ c' = if g.swapsBuffer then { d with psi := c.psi } else d

/-! ## measurement -/

/-- `MeasurementGateImpl` (/repo/include/scaluq/gate/gate_measurement.hpp:9-21) -/
structure MeasGate where
  o : Operands
  cbit : Nat
  reset : Bool

/-- /repo/include/scaluq/gate/gate_factory.hpp:178-183 `gate::Measurement` -/
def mkMeas (target cbit : Nat) (reset : Bool) : Res MeasGate := do
  let t ← vectorToMask [target]
  let o ← gateBase t 0 0
  pure ⟨o, cbit, reset⟩

/-- /repo/src/gate/gate_measurement.cpp:22-42 `apply_measurement_update`: `u` is the number drawn by
`std::bernoulli_distribution(p)`, which answers true iff `u < p` and requires `0 <= p <= 1`; the result is `measured_zero`.
The state upon a division by zero (NaN amplitudes) is not modelled further. -/
def MeasureRuns (L n : Nat) (g : MeasGate) (u : ℝ) (ψ ψ' : U64 → ℂ) (r : Res Bool) : Prop :=
  match zeroProbability n (ctz g.o.t) ψ with
  | .error e => ψ' = ψ ∧ r = .error e
  | .ok p =>
    if 0 ≤ p ∧ p ≤ 1 then
      ∃ ψ1, DRuns (1 * 2 ^ n) (gate1Kernel L n ⟨g.o.t, 0, 0⟩ (1 * 2 ^ n) (if u < p then .P0 else .P1)) ψ ψ1 ∧
        match normalizeDev n ψ1 with
        | .error e => ψ' = ψ1 ∧ r = .error e
        | .ok dev => ∃ ψ2, DRuns (2 ^ n) dev ψ1 ψ2 ∧ r = .ok (decide (u < p)) ∧
            if g.reset = true ∧ ¬ u < p then DRuns (1 * 2 ^ n) (gate1Kernel L n ⟨g.o.t, 0, 0⟩ (1 * 2 ^ n) .X) ψ2 ψ'
            else ψ' = ψ2
    else ψ' = ψ ∧ r = .error (.ub "bernoulli_distribution(p): p outside [0, 1]")

/-- `classical_register[i] = b` (/repo/include/scaluq/classical_register/classical_register.hpp:20-26) -/
def setRegister (reg : List Bool) (i : Nat) (b : Bool) : Res (List Bool) :=
  if i ≥ reg.length then .error (.throw "ClassicalRegister::operator[](std::uint64_t): index out of bounds")
  else .ok (reg.set i b)

/-- measure and store the outcome (/repo/src/gate/gate_measurement.cpp:53-55 and 72-76) -/
def MeasGate.MeasureAndStore (L n : Nat) (rnd : Nat → ℝ) (g : MeasGate) (c c' : Context) (f : Option Fault) : Prop :=
  ∃ r, MeasureRuns L n g (rnd c.pos) c.psi c'.psi r ∧ c'.pos = c.pos + 1 ∧
    match r with
    | .error e => c'.reg = c.reg ∧ f = some e
    | .ok measuredZero =>
      match setRegister c.reg g.cbit (!measuredZero) with
      | .error e => c'.reg = c.reg ∧ f = some e
      | .ok reg => c'.reg = reg ∧ f = none

/-- the checks of /repo/src/gate/gate_measurement.cpp:48-52 -/
def MeasGate.check (n regSize : Nat) (g : MeasGate) : Res Unit := do
  checkWithinBounds g.o n
  if regSize ≤ g.cbit then
    .error (.throw "MeasurementGate::update_quantum_state(): classical register size is too small for the requested classical bit index.")
  else pure ()

/-- /repo/src/gate/gate_measurement.cpp:44-56 `MeasurementGateImpl::update_quantum_state`. -/
def MeasGate.RunsOn (L n : Nat) (rnd : Nat → ℝ) (g : MeasGate) (c c' : Context) (f : Option Fault) : Prop :=
  match g.check n c.reg.length with
  | .error e => c' = c ∧ f = some e
  | .ok _ => g.MeasureAndStore L n rnd c c' f

/-! ## probabilistic gates -/

/-- the fields `_distribution`, `_cumulative_distribution`, `_gate_list` of `ProbabilisticGateImpl`
(/repo/include/scaluq/gate/gate_probabilistic.hpp:11-13) and `ParamProbabilisticGateImpl`; `G` is the type of the components -/
structure ProbTable (G : Type) where
  dist : List ℝ
  cum : List ℝ
  gates : List G

/-- an entry of the constructor's `gate_list` -/
inductive Component (G : Type) where
  | leaf (g : G)
  | nested (t : ProbTable G)
  | measurement

/-- /repo/src/gate/gate_probabilistic.cpp:18-42 `flatten_probabilistic_gate` (and the same for parametric gates,
/repo/src/gate/param_gate_probabilistic.cpp:20-62).  The components of a probabilistic gate object were flattened by its
constructor, so the recursion has depth one. -/
def flattenGate {G : Type} (prefixProb : ℝ) : Component G → Res (List (ℝ × G))
  | .measurement => .error (.throw "MeasurementGate cannot be added to ProbabilisticGate.")
  | .leaf g => .ok [(prefixProb, g)]
  | .nested t =>
    if t.dist.length ≤ t.gates.length then .ok ((t.dist.zip t.gates).map fun p => (prefixProb * p.1, p.2))
    else .error (.ub "gate_list[i] out of range")

/-- the loop over `distribution` (/repo/src/gate/gate_probabilistic.cpp:59-66); `none` is a NaN or an infinity -/
noncomputable def checkProbabilities : List (Option ℝ) → Res (List ℝ)
  | [] => .ok []
  | none :: _ => .error (.throw "distribution must contain only finite values.")
  | some p :: ps =>
    open Classical in
    if p < 0 ∨ p > 1 then .error (.throw "Each probability must be between 0 and 1.")
    else do
      let r ← checkProbabilities ps
      pure (p :: r)

/-- the loop over the pairs (/repo/src/gate/gate_probabilistic.cpp:68-70) -/
def flattenAll {G : Type} : List ℝ → List (Component G) → Res (List (ℝ × G))
  | p :: ps, c :: cs => do
    let a ← flattenGate p c
    let r ← flattenAll ps cs
    pure (a ++ r)
  | _, _ => .ok []

/-- /repo/src/gate/gate_probabilistic.cpp:45-77, the constructor; the same as
/repo/src/gate/param_gate_probabilistic.cpp:65-101. -/
noncomputable def mkProbTable {G : Type} (dist : List (Option ℝ)) (gates : List (Component G)) : Res (ProbTable G) :=
  if dist.length = 0 then .error (.throw "At least one gate is required.")
  else if dist.length ≠ gates.length then .error (.throw "distribution and gate_list have different size.")
  else do
    let ps ← checkProbabilities dist
    let flat ← flattenAll ps gates
    let cum := (flat.map (·.1)).scanl (· + ·) 0
    match cum.getLast? with
    | none => .error (.ub "back() of an empty vector")
    | some last =>
      if |last - 1| > 1 / 10 ^ 6 then .error (.throw "Sum of distribution must be equal to 1.")
      else pure ⟨flat.map (·.1), cum, flat.map (·.2)⟩

/-- `a - b` of `std::uint64_t` values -/
def sub64 (a b : Nat) : Nat := if b ≤ a then a - b else 2 ^ 64 + a - b

/-- `std::ranges::upper_bound(s, r) - s.begin()`: the first position whose element is greater than `r`; the range must be
partitioned with respect to `r` -/
noncomputable def upperBound (s : List ℝ) (r : ℝ) : Res Nat :=
  open Classical in
  if s.Pairwise (· ≤ ·) then .ok (s.findIdx fun x => decide (r < x)) else .error (.ub "upper_bound on an unsorted range")

/-- /repo/src/gate/gate_probabilistic.cpp:7-16 `select_probabilistic_gate_index` for the draw `r` -/
noncomputable def selectIndex (cum : List ℝ) (r : ℝ) : Res Nat := do
  let d ← upperBound cum r
  pure (min (sub64 d 1) (sub64 cum.length 2))

/-- the component chosen by the draw `r` (/repo/src/gate/gate_probabilistic.cpp:103-105) -/
noncomputable def ProbTable.select {G : Type} (t : ProbTable G) (r : ℝ) : Res G := do
  let i ← selectIndex t.cum r
  match t.gates[i]? with
  | none => .error (.ub "_gate_list[i] out of range")
  | some g => pure g

/-! ## gates -/

/-- `Gate<Prec>`: a gate object of any class -/
inductive Gate where
  | det (g : UGate)
  | prob (t : ProbTable UGate)
  | meas (g : MeasGate)

/-- a gate as entry of a probabilistic gate -/
def Gate.component : Gate → Component UGate
  | .det g => .leaf g
  | .prob t => .nested t
  | .meas _ => .measurement

/-- `gate::Probabilistic` (/repo/include/scaluq/gate/gate_factory.hpp:389-394) -/
noncomputable def mkProbabilistic (dist : List (Option ℝ)) (gates : List Gate) : Res Gate := do
  let t ← mkProbTable dist (gates.map Gate.component)
  pure (.prob t)

/-- /repo/src/gate/gate_probabilistic.cpp:78-86 `get_inverse` -/
noncomputable def ProbTable.inverse (t : ProbTable UGate) : Res (ProbTable UGate) := do
  let gs ← t.gates.mapM UGate.inverse
  mkProbTable (t.dist.map some) (gs.map .leaf)

/-- `get_inverse` of any gate; measurement: /repo/include/scaluq/gate/gate_measurement.hpp:26-29 -/
noncomputable def Gate.inverse : Gate → Res Gate
  | .det g => do
    let g' ← g.inverse
    pure (.det g')
  | .prob t => do
    let t' ← t.inverse
    pure (.prob t')
  | .meas _ => .error (.throw "Measurement::get_inverse: Measurement gate doesn't have inverse gate")

/-- `operand_qubit_mask()`; probabilistic: /repo/include/scaluq/gate/gate_probabilistic.hpp:53-57 -/
def Gate.operandMask : Gate → U64
  | .det g => g.operands.t ||| g.operands.c
  | .prob t => t.gates.foldl (fun m g => m ||| (g.operands.t ||| g.operands.c)) 0
  | .meas g => g.o.t ||| g.o.c

/-- `update_quantum_state(context)` of any gate; probabilistic: /repo/src/gate/gate_probabilistic.cpp:100-106 -/
def Gate.RunsOn (L n : Nat) (rnd : Nat → ℝ) (g : Gate) (c c' : Context) (f : Option Fault) : Prop :=
  match g with
  | .det g => g.RunsOn L n c c' f
  | .prob t =>
    match t.select (rnd c.pos) with
    | .error e => c' = { c with pos := c.pos + 1 } ∧ f = some e
    | .ok u => u.RunsOn L n { c with pos := c.pos + 1 } c' f
  | .meas g => g.RunsOn L n rnd c c' f

/-- `Gate.RunsOn` for a context whose state is a view; measurement (/repo/src/gate/gate_measurement.cpp:7-41) works in place -/
def Gate.RunsOnView (L n : Nat) (rnd : Nat → ℝ) (g : Gate) (c c' : Context) (f : Option Fault) : Prop :=
  match g with
  | .det g => g.RunsOnView L n c c' f
  | .prob t =>
    match t.select (rnd c.pos) with
    | .error e => c' = { c with pos := c.pos + 1 } ∧ f = some e
    | .ok u => u.RunsOnView L n { c with pos := c.pos + 1 } c' f
  | .meas g => g.RunsOn L n rnd c c' f

/-! ## batches -/

/-- `ClassicalRegisterBatched` (/repo/include/scaluq/classical_register/classical_register_batched.hpp:16-20) -/
structure BReg where
  size : Nat
  regs : List (List Bool)

/-- `ExecutionContextBatched` (/repo/include/scaluq/gate/gate.hpp:219-232); the amplitudes of all slots in one array -/
structure BContext where
  psi : U64 → ℂ
  reg : BReg
  pos : Nat

/-- the amplitudes of slot `b` in the memory of a batch of states of `n` qubits (the view has `2 ^ n` elements; the value at
other indices is never read) -/
def slotOf (n b : Nat) (Ψ : U64 → ℂ) : U64 → ℂ := fun j =>
  if j.toNat < 2 ^ n then Ψ (BitVec.ofNat 64 (b * 2 ^ n + j.toNat)) else 0

/-- the memory after the view of slot `b` was changed to `ψ` -/
def putSlot (n b : Nat) (ψ : U64 → ℂ) (Ψ : U64 → ℂ) : U64 → ℂ := fun j =>
  if j.toNat / 2 ^ n = b then ψ (BitVec.ofNat 64 (j.toNat % 2 ^ n)) else Ψ j

/-- the memory of a batch given by its slots; outside the batch it is `Ψ` -/
def ofSlots (B n : Nat) (s : Nat → U64 → ℂ) (Ψ : U64 → ℂ) : U64 → ℂ := fun j =>
  if j.toNat < B * 2 ^ n then s (j.toNat / 2 ^ n) (BitVec.ofNat 64 (j.toNat % 2 ^ n)) else Ψ j

/-- a single-state update through `view_state_vector_at(b)` and `(*classical_register)[b]`
(/repo/src/gate/gate_probabilistic.cpp:110-115, /repo/src/circuit/circuit.cpp:190-203); `run` relates the memory seen by the
view before and after -/
def SlotStep (n : Nat) (run : Context → Context → Option Fault → Prop) (b : Nat) (c c' : BContext) (f : Option Fault) : Prop :=
  match c.reg.regs[b]? with
  | none => c' = c ∧ f = some (.throw "ClassicalRegisterBatched: batch index out of bounds")
  | some r => ∃ d, run ⟨slotOf n b c.psi, r, c.pos⟩ d f ∧
      c' = ⟨putSlot n b d.psi c.psi, { c.reg with regs := c.reg.regs.set b d.reg }, d.pos⟩

/-- the checks of /repo/src/gate/gate_measurement.cpp:60-69 -/
def MeasGate.checkBatched (B n : Nat) (reg : BReg) (g : MeasGate) : Res Unit := do
  checkWithinBounds g.o n
  if reg.regs.length ≠ B then .error (.throw "MeasurementGate::update_quantum_state(): batch size mismatch.")
  else if reg.size ≤ g.cbit then
    .error (.throw "MeasurementGate::update_quantum_state(): classical register size is too small for the requested classical bit index.")
  else pure ()

/-- `update_quantum_state(batched context)` of any gate: deterministic gates launch their kernels on the whole batch,
measurement (/repo/src/gate/gate_measurement.cpp:57-79) and probabilistic gates (/repo/src/gate/gate_probabilistic.cpp:107-117)
loop over the slots. -/
def Gate.RunsBatched (L B n : Nat) (rnd : Nat → ℝ) (g : Gate) (c c' : BContext) (f : Option Fault) : Prop :=
  match g with
  | .det g =>
    match g.update L B n with
    | .error e => c' = c ∧ f = some e
    | .ok dev => f = none ∧ c'.reg = c.reg ∧ c'.pos = c.pos ∧ DRuns (B * 2 ^ n) dev c.psi c'.psi
  | .prob t => SeqRun (SlotStep n (Gate.RunsOnView L n rnd (.prob t))) (List.range B) c c' f
  | .meas g =>
    match g.checkBatched B n c.reg with
    | .error e => c' = c ∧ f = some e
    | .ok _ => SeqRun (SlotStep n (g.MeasureAndStore L n rnd)) (List.range B) c c' f

/-! ## noise -/

/-- components on one target: `X(target)`, `I()` etc. -/
noncomputable def pauliComponents (target : Nat) : List (Option Gate1) → Res (List Gate)
  | [] => .ok []
  | k :: ks => do
    let g ← match k with
      | none => GateDesc.build .ident
      | some k => GateDesc.build (.one k target [] [])
    let r ← pauliComponents target ks
    pure (.det g :: r)

/-- /repo/include/scaluq/gate/gate_factory.hpp:412-435.  The target is `std::int64_t` in the code and converted to an unsigned
number; a negative one becomes at least 2^63. -/
noncomputable def mkBitFlipNoise (target : Nat) (p : ℝ) : Res Gate := do
  let gs ← pauliComponents target [some .X, none]
  mkProbabilistic [some p, some (1 - p)] gs

/-- /repo/include/scaluq/gate/gate_factory.hpp:417-420 `DephasingNoise` -/
noncomputable def mkDephasingNoise (target : Nat) (p : ℝ) : Res Gate := do
  let gs ← pauliComponents target [some .Z, none]
  mkProbabilistic [some p, some (1 - p)] gs

/-- /repo/include/scaluq/gate/gate_factory.hpp:421-429 `BitFlipAndDephasingNoise` -/
noncomputable def mkBitFlipAndDephasingNoise (target : Nat) (p : ℝ) : Res Gate := do
  let gs ← pauliComponents target [some .Y, some .X, some .Z, none]
  mkProbabilistic [some (p * p), some (p * (1 - p)), some (p * (1 - p)), some ((1 - p) * (1 - p))] gs

/-- /repo/include/scaluq/gate/gate_factory.hpp:430-435 `DepolarizingNoise` -/
noncomputable def mkDepolarizingNoise (target : Nat) (p : ℝ) : Res Gate := do
  let gs ← pauliComponents target [some .X, some .Y, some .Z, none]
  mkProbabilistic [some (p / 3), some (p / 3), some (p / 3), some (1 - p)] gs

end Verif.Model
