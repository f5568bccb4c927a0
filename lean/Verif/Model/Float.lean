import Verif.Model.UGate

/-!
# Gates in floating-point arithmetic

`UGate.update` (Verif.Model.UGate) computes with exact real numbers.  This module models the same functions of the
code with the arithmetic left open: `F` is the type `Float<Prec>` (/repo/include/scaluq/type/floating_point.hpp)
with whatever `+`, `-`, `*`, unary `-` it has, `FloatLib F` are the conversions and library functions used, and `R` is
the type of complex numbers over `F`.  `Cx F` is `Complex<Prec>`, with the operators of
/repo/include/scaluq/type/complex.hpp written out.  Every operation is rounded on its own (no contraction into fused
multiply-adds).  `updateF_exact` (Verif.Proofs.FloatExact) proves that for `F = ℝ`, `R = ℂ` this is the exact model.
-/

namespace Verif.Model
open Verif
open Verif.Spec (Gate1)

/-- `Complex<Prec>`, /repo/include/scaluq/type/complex.hpp:8-132: the members `_real`, `_imag`. -/
structure Cx (F : Type) where
  re : F
  im : F

namespace Cx
variable {F : Type}

/-- the constructor from two parts and the accessors, /repo/include/scaluq/type/complex.hpp:20-26, 48-51. -/
instance : Cplx (Cx F) F := ⟨Cx.mk, Cx.re, Cx.im, fun _ _ => rfl, fun _ _ => rfl⟩
/-- /repo/include/scaluq/type/complex.hpp:14. -/
instance [Zero F] : Zero (Cx F) := ⟨⟨0, 0⟩⟩
/-- `Complex(1)`, /repo/include/scaluq/type/complex.hpp:15-19. -/
instance [Zero F] [One F] : One (Cx F) := ⟨⟨1, 0⟩⟩
/-- /repo/include/scaluq/type/complex.hpp:54. -/
instance [Neg F] : Neg (Cx F) := ⟨fun a => ⟨-a.re, -a.im⟩⟩
/-- /repo/include/scaluq/type/complex.hpp:56-63. -/
instance [Add F] : Add (Cx F) := ⟨fun a b => ⟨a.re + b.re, a.im + b.im⟩⟩
/-- /repo/include/scaluq/type/complex.hpp:64-71. -/
instance [Sub F] : Sub (Cx F) := ⟨fun a b => ⟨a.re - b.re, a.im - b.im⟩⟩
/-- /repo/include/scaluq/type/complex.hpp:72-75. -/
instance [Add F] [Sub F] [Mul F] : Mul (Cx F) :=
  ⟨fun a b => ⟨a.re * b.re - a.im * b.im, a.re * b.im + a.im * b.re⟩⟩

end Cx

/-- Conversions and library functions of the type `Float<Prec>`: `cast` is `static_cast<Float<Prec>>` of a `double`,
`half x` is `x / Float<Prec>{2}`, the others are the functions of /repo/include/scaluq/util/math.hpp:9-134. -/
structure FloatLib (F : Type) where
  cast : ℝ → F
  half : F → F
  cos : F → F
  sin : F → F
  exp : F → F
  cosh : F → F
  sinh : F → F

/-- exact real arithmetic -/
noncomputable def exactLib : FloatLib ℝ := ⟨id, fun x => x / 2, Real.cos, Real.sin, Real.exp, Real.cosh, Real.sinh⟩

section
variable {R F : Type} [Cplx R F] [Zero F] [One F] [Add F] [Sub F] [Mul F] [Neg F]
variable [Zero R] [One R] [Add R] [Sub R] [Mul R] [Neg R] (lib : FloatLib F)

/-- conversion of a `std::complex<double>`, /repo/include/scaluq/type/complex.hpp:27-28 -/
def castC (z : ℂ) : R := Cplx.ofParts (lib.cast z.re) (lib.cast z.im)

/-- `operator*(Scalar lhs, const Complex& rhs)`, /repo/include/scaluq/type/complex.hpp:90-96. -/
def scaleC (a : F) (z : R) : R := Cplx.ofParts (a * Cplx.re z) (a * Cplx.im z)

/-- `operator/(Scalar rhs)` for `rhs = 2`, /repo/include/scaluq/type/complex.hpp:98-111. -/
def halfC (z : R) : R := Cplx.ofParts (lib.half (Cplx.re z)) (lib.half (Cplx.im z))

/-- /repo/include/scaluq/util/math.hpp:147-150 `exp(Complex)`. -/
def expC (z : R) : R := scaleC (lib.exp (Cplx.re z)) (Cplx.ofParts (lib.cos (Cplx.im z)) (lib.sin (Cplx.im z)) : R)

/-- /repo/include/scaluq/util/math.hpp:137-140 `sin(Complex)`. -/
def sinC (z : R) : R := Cplx.ofParts (lib.sin (Cplx.re z) * lib.cosh (Cplx.im z)) (lib.cos (Cplx.re z) * lib.sinh (Cplx.im z))

/-- /repo/include/scaluq/util/math.hpp:142-145 `cos(Complex)`. -/
def cosC (z : R) : R := Cplx.ofParts (lib.cos (Cplx.re z) * lib.cosh (Cplx.im z)) (-lib.sin (Cplx.re z) * lib.sinh (Cplx.im z))

/-- /repo/include/scaluq/util/math.hpp:152-157 `polar`. -/
def polarF (r theta : F) : R := Cplx.ofParts (r * lib.cos theta) (r * lib.sin theta)

/-- `static_cast<Float<Prec>>(INVERSE_SQRT2())`, /repo/include/scaluq/constant.hpp:14-15. -/
noncomputable def invSqrt2F : F := lib.cast inverseSqrt2

/-- /repo/include/scaluq/constant.hpp:72-75. -/
noncomputable def hadamardF : M22 R :=
  let s := invSqrt2F lib
  ⟨Cplx.ofParts s 0, Cplx.ofParts s 0, Cplx.ofParts s 0, Cplx.ofParts (-s) 0⟩
/-- `Complex<Prec>(a, b)` for `double` literals, /repo/include/scaluq/type/complex.hpp:20-26. -/
def lit (a b : ℝ) : R := Cplx.ofParts (lib.cast a) (lib.cast b)
/-- /repo/include/scaluq/constant.hpp:78-81. -/
noncomputable def sqrtXF : M22 R := ⟨lit lib 0.5 0.5, lit lib 0.5 (-0.5), lit lib 0.5 (-0.5), lit lib 0.5 0.5⟩
/-- /repo/include/scaluq/constant.hpp:84-87. -/
noncomputable def sqrtYF : M22 R := ⟨lit lib 0.5 0.5, lit lib (-0.5) (-0.5), lit lib 0.5 0.5, lit lib 0.5 0.5⟩
/-- /repo/include/scaluq/constant.hpp:90-93. -/
noncomputable def sqrtXdagF : M22 R := ⟨lit lib 0.5 (-0.5), lit lib 0.5 0.5, lit lib 0.5 0.5, lit lib 0.5 (-0.5)⟩
/-- /repo/include/scaluq/constant.hpp:96-99. -/
noncomputable def sqrtYdagF : M22 R := ⟨lit lib 0.5 (-0.5), lit lib 0.5 (-0.5), lit lib (-0.5) 0.5, lit lib 0.5 (-0.5)⟩

/-- /repo/src/gate/update_ops_standard.cpp:5-13 `get_IBMQ_matrix`. -/
def ibmqF (theta phi lam : F) : M22 R :=
  let expVal1 : R := expC lib (Cplx.ofParts 0 phi)
  let expVal2 : R := expC lib (Cplx.ofParts 0 lam)
  let cosVal : R := Cplx.ofParts (lib.cos (lib.half theta)) 0
  let sinVal : R := Cplx.ofParts (lib.sin (lib.half theta)) 0
  ⟨cosVal, -expVal2 * sinVal, expVal1 * sinVal, expVal1 * expVal2 * cosVal⟩

/-- The launches of the one-qubit gates; sources as for `gate1Kernel`.  The gate object stores its angles as
`Float<Prec>` (/repo/include/scaluq/gate/gate_factory.hpp:194-260). -/
noncomputable def gate1KernelF (L n : Nat) (o : Operands) (dim : Nat) : Gate1 → Device R
  | .X => .par _ (xGate o.t o.c o.v dim)
  | .Y => .par _ (yGate (Cplx.ofParts 0 1) (Cplx.ofParts 0 (-1)) o.t o.c o.v dim)
  | .Z => .par _ (phaseGate o.t o.c o.v (Cplx.ofParts (-1) 0 : R) dim)
  | .H => dense1 L n o.t o.c o.v (hadamardF lib) dim
  | .S => .par _ (phaseGate o.t o.c o.v (Cplx.ofParts 0 1 : R) dim)
  | .Sdag => .par _ (phaseGate o.t o.c o.v (Cplx.ofParts 0 (-1) : R) dim)
  | .T => .par _ (phaseGate o.t o.c o.v (lit lib inverseSqrt2 inverseSqrt2 : R) dim)
  | .Tdag => .par _ (phaseGate o.t o.c o.v (lit lib inverseSqrt2 (-inverseSqrt2) : R) dim)
  | .SqrtX => dense1 L n o.t o.c o.v (sqrtXF lib) dim
  | .SqrtXdag => dense1 L n o.t o.c o.v (sqrtXdagF lib) dim
  | .SqrtY => dense1 L n o.t o.c o.v (sqrtYF lib) dim
  | .SqrtYdag => dense1 L n o.t o.c o.v (sqrtYdagF lib) dim
  | .P0 => dense1 L n o.t o.c o.v (⟨1, 0, 0, 0⟩ : M22 R) dim
  | .P1 => dense1 L n o.t o.c o.v (⟨0, 0, 0, 1⟩ : M22 R) dim
  | .RX angle =>
    let cosval := lib.cos (lib.half (lib.cast angle))
    let sinval := lib.sin (lib.half (lib.cast angle))
    dense1 L n o.t o.c o.v
      (⟨Cplx.ofParts cosval 0, Cplx.ofParts 0 (-sinval), Cplx.ofParts 0 (-sinval), Cplx.ofParts cosval 0⟩ : M22 R) dim
  | .RY angle =>
    let cosval := lib.cos (lib.half (lib.cast angle))
    let sinval := lib.sin (lib.half (lib.cast angle))
    dense1 L n o.t o.c o.v
      (⟨Cplx.ofParts cosval 0, Cplx.ofParts (-sinval) 0, Cplx.ofParts sinval 0, Cplx.ofParts cosval 0⟩ : M22 R) dim
  | .RZ angle =>
    let cosval := lib.cos (lib.half (lib.cast angle))
    let sinval := lib.sin (lib.half (lib.cast angle))
    .par _ (diagGate o.t o.c o.v (Cplx.ofParts cosval (-sinval) : R) (Cplx.ofParts cosval sinval) dim)
  | .U1 lam => .par _ (phaseGate o.t o.c o.v (expC lib (Cplx.ofParts 0 (lib.cast lam)) : R) dim)
  | .U2 phi lam => dense1 L n o.t o.c o.v
      (ibmqF lib (lib.cast (Real.pi / 2)) (lib.cast phi) (lib.cast lam) : M22 R) dim
  | .U3 theta phi lam => dense1 L n o.t o.c o.v (ibmqF lib (lib.cast theta) (lib.cast phi) (lib.cast lam) : M22 R) dim

/-- /repo/include/scaluq/constant.hpp:117-119 `PHASE_M90ROT()[k % 4]`. -/
def phaseM90F (k : Nat) : R :=
  (![Cplx.ofParts 1 0, Cplx.ofParts 0 (-1), Cplx.ofParts (-1) 0, Cplx.ofParts 0 1] : Fin 4 → R) (Fin.ofNat 4 k)

/-- /repo/include/scaluq/operator/apply_pauli.hpp:15-56 `apply_pauli`. -/
def applyPauliF (c v x z : U64) (coef : R) (dim : Nat) : Device R :=
  if x = 0 then .par _ (pauliDiag c v z coef dim)
  else .par _ (pauliFlip c v x z (phaseM90F (popcount (x &&& z))) coef dim)

/-- /repo/include/scaluq/operator/apply_pauli.hpp:173-232 `apply_pauli_rotation`. -/
def applyPauliRotationF (c v x z : U64) (coef : R) (angle : F) (dim : Nat) : Device R :=
  let trueAngle : R := scaleC angle coef
  let halfAngle := halfC lib trueAngle
  let cosval := cosC lib (-halfAngle)
  let sinval := sinC lib (-halfAngle)
  if x = 0 then .par _ (pauliRotDiag c v z (cosval - Cplx.ofParts 0 1 * sinval) (cosval + Cplx.ofParts 0 1 * sinval) dim)
  else .par _ (pauliRotFlip (Cplx.ofParts 0 1) phaseM90F c v x z cosval sinval dim)

/-- /repo/src/gate/gate_matrix.cpp:6-37 (conversion of the matrix) and 103-146, as `denseUpdate`. -/
def denseUpdateF (L B n : Nat) (M : DMat ℂ) (o : Operands) : Res (Device R) := do
  checkWithinBounds o n
  let e : Nat → Nat → R := fun i j => castC lib (M.entry i j)
  if M.rows = 1 ∧ M.cols = 1 then
    pure (zeroTarget L n o.c o.v (e 0 0) (B * 2 ^ n))
  else if M.rows = 2 ∧ M.cols = 2 then
    pure (dense1 L n o.t o.c o.v ⟨e 0 0, e 0 1, e 1 0, e 1 1⟩ (B * 2 ^ n))
  else if M.rows = 4 ∧ M.cols = 4 then
    pure (.par _ (dense2 o.t o.c o.v (fun i j => e i j) (B * 2 ^ n)))
  else if 2 ^ popcount o.t ≤ M.rows ∧ 2 ^ popcount o.t ≤ M.cols then
    pure (multiDense n o.t o.c o.v e (B * 2 ^ n))
  else .error (.ub "matrix(r, c) out of range")

/-- `update_quantum_state` of every gate class in floating-point arithmetic; sources as for `UGate.update`. -/
noncomputable def UGate.updateF (L B n : Nat) : UGate → Res (Device R)
  | .ident => .ok .skip
  | .globalPhase phase o => do
    checkWithinBounds o n
    pure (zeroTarget L n o.c o.v (polarF lib 1 (lib.cast phase)) (B * 2 ^ n))
  | .one k o => do
    checkWithinBounds o n
    pure (gate1KernelF lib L n o (B * 2 ^ n) k)
  | .swap o => do
    checkWithinBounds o n
    pure (.par _ (swapGate o.t o.c o.v (B * 2 ^ n)))
  | .ecr g => do
    checkWithinBounds g.o n
    pure (.par _ (ecrGate (Cplx.ofParts 0 1 : R) (Cplx.ofParts 0 (-1)) (Cplx.ofParts (invSqrt2F lib) 0) g.pt g.pc g.o.c g.o.v
      (B * 2 ^ n)))
  | .perm g => do
    checkWithinBounds g.o n
    pure (permKernel (B * 2 ^ n) g.schedule)
  | .dense g => denseUpdateF lib L B n g.mat g.o
  | .sparse g => do
    checkWithinBounds g.o n
    sparseKernel n g.o.t g.o.c g.o.v { g.mat with vals := g.mat.vals.map (castC lib) } (B * 2 ^ n)
  | .pauli g => pure (applyPauliF g.o.c g.o.v g.p.x g.p.z (castC lib g.p.coef) (B * 2 ^ n))
  | .pauliRot g angle =>
    pure (applyPauliRotationF lib g.o.c g.o.v g.p.x g.p.z (castC lib g.p.coef) (lib.cast angle) (B * 2 ^ n))

/-- `Circuit::update_quantum_state` (/repo/src/circuit/circuit.cpp:76-141) for a circuit of gates without parameters
and conditions: the gates update one state of `n` qubits one after another. -/
def GatesRunF (L n : Nat) : List UGate → (U64 → R) → (U64 → R) → Prop
  | [], m, m' => m' = m
  | g :: gs, m, m' => ∃ d m₁, g.updateF lib L 1 n = .ok d ∧ DRuns (1 * 2 ^ n) d m m₁ ∧ GatesRunF L n gs m₁ m'

end

end Verif.Model
