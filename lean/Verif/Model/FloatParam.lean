import Verif.Model.Float
import Verif.Model.ParamGate

/-!
# Parametric rotations in floating-point arithmetic

As `Verif.Model.Float`, for the gates with a parameter.  The object stores `_pcoef` as a `Float<Prec>`
(/repo/include/scaluq/gate/param_gate.hpp:67, /repo/include/scaluq/gate/param_gate_factory.hpp:19-66) and the parameter
is converted on every call, so the angle is the rounded product of two rounded numbers.  `protUpdateF_exact` and
`protLaunchF_exact` (Verif.Proofs.FloatParam) prove that for `F = ℝ`, `R = ℂ` this is the exact model.
-/

namespace Verif.Model
open Verif

section
variable {R F : Type} [Cplx R F] [Zero F] [One F] [Add F] [Sub F] [Mul F] [Neg F]
variable [Zero R] [One R] [Add R] [Sub R] [Mul R] [Neg R] (lib : FloatLib F)

/-- the matrix of `rx_gate` and `ry_gate` and the two diagonal entries of `rz_gate`, as functions of the angle:
/repo/src/gate/update_ops_standard.cpp:77-81 (rx), 127-131 (ry), 176-179 (rz) -/
def rxMatF (angle : F) : M22 R :=
  let cosval := lib.cos (lib.half angle)
  let sinval := lib.sin (lib.half angle)
  ⟨Cplx.ofParts cosval 0, Cplx.ofParts 0 (-sinval), Cplx.ofParts 0 (-sinval), Cplx.ofParts cosval 0⟩

/-- see `rxMatF` -/
def ryMatF (angle : F) : M22 R :=
  let cosval := lib.cos (lib.half angle)
  let sinval := lib.sin (lib.half angle)
  ⟨Cplx.ofParts cosval 0, Cplx.ofParts (-sinval) 0, Cplx.ofParts sinval 0, Cplx.ofParts cosval 0⟩

/-- see `rxMatF` -/
def rzDiagF (angle : F) : R × R :=
  let cosval := lib.cos (lib.half angle)
  let sinval := lib.sin (lib.half angle)
  (Cplx.ofParts cosval (-sinval), Cplx.ofParts cosval sinval)

/-- the launch of a rotation about an axis by an angle that is already a `Float<Prec>`; sources as for `rxMatF` -/
def rotKernelF (L n : Nat) (o : Operands) (dim : Nat) (angle : F) : RotAxis → Device R
  | .X => dense1 L n o.t o.c o.v (rxMatF lib angle) dim
  | .Y => dense1 L n o.t o.c o.v (ryMatF lib angle) dim
  | .Z => .par _ (diagGate o.t o.c o.v (rzDiagF lib angle : R × R).1 (rzDiagF lib angle : R × R).2 dim)

/-- `update_quantum_state(context, param)`; sources as for `PRot.update`: the angle is
`this->_pcoef * static_cast<Float<Prec>>(param)` (/repo/src/gate/param_gate_standard.cpp:29,
/repo/src/gate/param_gate_pauli.cpp:39) -/
def PRot.updateF (L n : Nat) (param : ℝ) : PRot → Res (Device R)
  | .axis a o pcoef => do
    checkWithinBounds o n
    pure (rotKernelF lib L n o (1 * 2 ^ n) (lib.cast pcoef * lib.cast param) a)
  | .pauli g pcoef => do
    checkWithinBounds g.o n
    pure (applyPauliRotationF lib g.o.c g.o.v g.p.x g.p.z (castC lib g.p.coef) (lib.cast pcoef * lib.cast param) (1 * 2 ^ n))

/-- the work of one team of the batched kernels; sources as for `PRot.launch`.  The axes multiply `params(batch_id) * pcoef`
(/repo/src/gate/update_ops_standard.cpp:98, 147, 197), the Pauli rotation `pcoef * params(batch_id)`, and it changes the
sign before it halves (/repo/include/scaluq/operator/apply_pauli.hpp:250-253). -/
def PRot.launchF (n : Nat) (param : ℝ) : PRot → Launch R
  | .axis .X o pcoef => ⟨_, dense1Scalar o.t o.c o.v (rxMatF lib (lib.cast param * lib.cast pcoef)) (2 ^ n)⟩
  | .axis .Y o pcoef => ⟨_, dense1Scalar o.t o.c o.v (ryMatF lib (lib.cast param * lib.cast pcoef)) (2 ^ n)⟩
  | .axis .Z o pcoef =>
    let d : R × R := rzDiagF lib (lib.cast param * lib.cast pcoef)
    ⟨_, diagGate o.t o.c o.v d.1 d.2 (2 ^ n)⟩
  | .pauli g pcoef =>
    let angle : F := lib.cast pcoef * lib.cast param
    let trueAngle : R := scaleC angle (castC lib g.p.coef : R)
    let cosval := cosC lib (halfC lib (-trueAngle))
    let sinval := sinC lib (halfC lib (-trueAngle))
    if g.p.x = 0 then ⟨_, pauliRotDiag g.o.c g.o.v g.p.z (cosval - Cplx.ofParts 0 1 * sinval) (cosval + Cplx.ofParts 0 1 * sinval) (2 ^ n)⟩
    else ⟨_, pauliRotFlip (Cplx.ofParts 0 1) phaseM90F g.o.c g.o.v g.p.x g.p.z cosval sinval (2 ^ n)⟩

/-- one rotation on a batch (`PRot.RunsBatched`): bounds check, then one team per state; `m b` are the amplitudes of state `b` -/
def PRot.BatchRunF (B n : Nat) (params : List ℝ) (r : PRot) (m m' : Nat → U64 → R) : Prop :=
  checkWithinBounds r.operands n = .ok () ∧ ∃ h : B ≤ params.length,
    Runs (InBatch B (2 ^ n)) (slotPool fun b : Fin B => r.launchF (R := R) lib n (params[b.val]'(by omega)))
      (fun p => m p.1 p.2) (fun p => m' p.1 p.2)

/-- `Circuit::update_quantum_state` (/repo/src/circuit/circuit.cpp:76-141) for a circuit of gates and of parametric rotations
with the keys of their parameters (/repo/src/circuit/circuit.cpp:101-103, 128-134: `parameters.at(key)`) -/
def ItemsRunF (L n : Nat) (params : String → Option ℝ) : List (UGate ⊕ PRot × String) → (U64 → R) → (U64 → R) → Prop
  | [], m, m' => m' = m
  | .inl g :: gs, m, m' => ∃ d m₁, g.updateF lib L 1 n = .ok d ∧ DRuns (1 * 2 ^ n) d m m₁ ∧ ItemsRunF L n params gs m₁ m'
  | .inr (r, key) :: gs, m, m' => ∃ t d m₁, params key = some t ∧ r.updateF lib L n t = .ok d ∧ DRuns (1 * 2 ^ n) d m m₁ ∧
      ItemsRunF L n params gs m₁ m'

end

end Verif.Model
