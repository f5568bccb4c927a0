import Verif.Model.FloatReduce
import Verif.Model.StateVec

/-!
# Normalisation and linear combination of states in floating-point arithmetic

As `Verif.Model.Float` and `Verif.Model.FloatReduce`: the arithmetic of the type `F` is left open.  `Proofs/FloatVec.lean` proves that
for `F = ℝ`, `R = ℂ` these are the exact models of `Verif.Model.StateVec`.
-/

namespace Verif.Model
open Verif

/-- the further operations of `Float<Prec>` used here: division and `internal::sqrt` (/repo/include/scaluq/util/math.hpp:9-134) -/
structure DivLib (F : Type) where
  div : F → F → F
  sqrt : F → F

/-- real numbers -/
noncomputable def exactDivLib : DivLib ℝ := ⟨fun x y => x / y, Real.sqrt⟩

section
variable {R F : Type} [Cplx R F] [Zero F] [Add F] [Mul F] [Add R] [Mul R] (lib : FloatLib F) (E : DivLib F)

/-- `Complex::operator/=(Scalar rhs)`, /repo/include/scaluq/type/complex.hpp:98-105 -/
def overC (z : R) (a : F) : R := Cplx.ofParts (E.div (Cplx.re z) a) (E.div (Cplx.im z) a)

/-- the kernel of `normalize` once the squared norm `s` is known: /repo/src/state/state_vector.cpp:123-127 -/
def divideF (n : Nat) (s : F) : Pool (Fin (2 ^ n)) U64 R := elementwise (2 ^ n) fun _ a => overC E a (E.sqrt s)

/-- /repo/src/state/state_vector.cpp:121-128 `normalize`: a reduction (any order of addition), then one kernel.  (The conversion of
the squared norm to `double` and back is exact.) -/
def NormalizesF (n : Nat) (m m' : U64 → R) : Prop :=
  ∃ s : F, SquaredNormF n m (.ok s) ∧ DRuns (2 ^ n) (.par _ (divideF E n s)) m m'

/-- /repo/src/state/state_vector_batched.cpp:275-296 `normalize`: team `b` adds up the squares of its own slot, in any order, and
after the barrier divides its own slot; `m b` are the amplitudes of state `b`. -/
def BatchNormalizesF (B n : Nat) (m m' : Nat → U64 → R) : Prop :=
  ∃ s : Fin B → F, (∀ b : Fin B, SquaredNormF n (m b.val) (.ok (s b))) ∧
    Runs (InBatch B (2 ^ n)) (slotPool fun b : Fin B => ⟨_, divideF (R := R) E n (s b)⟩) (fun p => m p.1 p.2) (fun p => m' p.1 p.2)

/-- /repo/src/state/state_vector.cpp:216-222 and state_vector_batched.cpp:438-447 `multiply_coef`: the coefficient is converted to
`Complex<Prec>` -/
def multiplyCoefF (B n : Nat) (c : ℂ) : Device R := .par (B * 2 ^ n) (elementwise (B * 2 ^ n) fun _ a => a * castC lib c)

/-- /repo/src/state/state_vector.cpp:206-215 `add_state_vector_with_coef`; addresses as for `addWithCoef` -/
def addWithCoefF (dim : Nat) (c : ℂ) : Pool (Fin dim) (Bool × U64) R :=
  parallelFor dim fun i => do
    let a ← Prog.load (false, i)
    let b ← Prog.load (true, i)
    Prog.store (false, i) (a + castC lib c * b)

/-- `add_state_vector_with_coef(c, φ)` on a state `m` of `n` qubits with a state `φ` of `n'` qubits leaves `m'` (`AddsWithCoef`) -/
def AddsWithCoefF (n n' : Nat) (c : ℂ) (m φ m' : U64 → R) : Prop :=
  Runs (fun p : Bool × U64 => p.2.toNat < if p.1 then 2 ^ n' else 2 ^ n) (addWithCoefF lib (2 ^ n) c)
    (twoBuffers m φ) (twoBuffers m' φ)

end

end Verif.Model
