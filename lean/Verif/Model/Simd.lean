import Verif.Model.Kernels
import Mathlib.Data.Complex.Basic

/-!
# SIMD kernels

Model of /repo/include/scaluq/util/simd_complex.hpp and of the SIMD variants and dispatchers in
/repo/src/gate/update_ops_matrix.cpp.  `L` is `complex_lanes`; a SIMD register holds the `2*L` scalars
`re, im, re, im, ...` of `L` consecutive amplitudes and is modelled by a function from scalar lane numbers
(only lanes below `2*L` matter).
-/

namespace Verif.Model
open Verif.Prog (load store)

/-- A type `R` of complex numbers with parts of type `F`: the members `_real`, `_imag` and the two-argument
constructor of `Complex<Prec>` (/repo/include/scaluq/type/complex.hpp:8-27, 48-51, 130).  The exact model uses
`R = ℂ`, `F = ℝ`; the floating-point model (`Verif.Model.Float`) uses rounded arithmetic. -/
class Cplx (R : Type) (F : outParam Type) where
  ofParts : F → F → R
  re : R → F
  im : R → F
  re_ofParts : ∀ a b, re (ofParts a b) = a
  im_ofParts : ∀ a b, im (ofParts a b) = b

/-- exact complex numbers -/
instance : Cplx ℂ ℝ := ⟨Complex.mk, Complex.re, Complex.im, fun _ _ => rfl, fun _ _ => rfl⟩

@[simp] theorem cplx_re (z : ℂ) : Cplx.re z = z.re := rfl
@[simp] theorem cplx_im (z : ℂ) : Cplx.im z = z.im := rfl
@[simp] theorem cplx_mk (a b : ℝ) : (Cplx.ofParts a b : ℂ) = ⟨a, b⟩ := rfl

variable {R F : Type} [Cplx R F] [Zero F] [Add F] [Mul F] [Neg F]

/-- contents of `Kokkos::Experimental::simd<Scalar>` -/
abbrev Simd (F : Type) := Nat → F

/-- /repo/include/scaluq/util/simd_complex.hpp:52-55 `load_aligned`: reads the `L` amplitudes starting at `a`.
The pointer to amplitude `a + k` is the pointer to amplitude `a` plus `k` (see `Verif.Model.Layout`). -/
def loadAligned : Nat → U64 → Prog U64 R (Simd F)
  | 0, _ => pure (fun _ => 0)
  | L + 1, a => do
    let d ← loadAligned L a
    let z ← load (a + BitVec.ofNat 64 L)
    pure (fun lane => if lane = 2 * L then Cplx.re z else if lane = 2 * L + 1 then Cplx.im z else d lane)

/-- /repo/include/scaluq/util/simd_complex.hpp:57-59 `store_aligned`. -/
def storeAligned (d : Simd F) : Nat → U64 → Prog U64 R Unit
  | 0, _ => pure ()
  | L + 1, a => do
    storeAligned d L a
    store (a + BitVec.ofNat 64 L) (Cplx.ofParts (d (2 * L)) (d (2 * L + 1)))

/-- /repo/include/scaluq/util/simd_complex.hpp:61-67 `multiply_by_i`. -/
def multiplyByI (d : Simd F) : Simd F := fun lane =>
  let swapped := d (lane ^^^ 1)
  if lane &&& 1 = 0 then -swapped else swapped

/-- /repo/include/scaluq/util/simd_complex.hpp:39-41 `Coef::operator*`; a `Coef` broadcasts the real and imaginary
part of one complex number (:35-37). -/
def coefMul (z : R) (d : Simd F) : Simd F := fun lane => Cplx.re z * d lane + Cplx.im z * multiplyByI d lane

/-- /repo/include/scaluq/util/simd_complex.hpp:69-72 `operator+`. -/
def simdAdd (d e : Simd F) : Simd F := fun lane => d lane + e lane

/-- /repo/src/gate/update_ops_matrix.cpp:28-50 `zero_target_dense_matrix_gate_simd`. -/
def zeroTargetSimd (L : Nat) (c v : U64) (z : R) (dim : Nat) : Pool (Fin (workItems dim c / L)) U64 R :=
  parallelFor _ fun g => do
    let compressedBase := g * BitVec.ofNat 64 L
    let basis := insertZero compressedBase c ||| v
    let d ← loadAligned L basis
    storeAligned (coefMul z d) L basis

/-- /repo/src/gate/update_ops_matrix.cpp:69-86 `zero_target_dense_matrix_gate`; `L = 0` stands for the precisions
and execution spaces compiled without the SIMD branch, `n` is the number of qubits (`state.dim() = 2^n`). -/
def zeroTarget [Mul R] (L n : Nat) (c v : U64) (z : R) (dim : Nat) : Device R :=
  if L > 0 ∧ 2 ^ n >>> popcount c ≥ L ∧ c &&& (BitVec.ofNat 64 L - 1) = 0 then
    .par _ (zeroTargetSimd L c v z dim)
  else .par _ (zeroTargetScalar c v z dim)

/-- /repo/src/gate/update_ops_matrix.cpp:88-119 `one_target_dense_matrix_gate_simd`. -/
def dense1Simd (L : Nat) (t c v : U64) (M : M22 R) (dim : Nat) :
    Pool (Fin (workItems dim (t ||| c) / L)) U64 R :=
  parallelFor _ fun g => do
    let compressedBase := g * BitVec.ofNat 64 L
    let basis0 := insertZero compressedBase (t ||| c) ||| v
    let basis1 := basis0 ||| t
    let v0 ← loadAligned L basis0
    let v1 ← loadAligned L basis1
    storeAligned (simdAdd (coefMul M.m00 v0) (coefMul M.m01 v1)) L basis0
    storeAligned (simdAdd (coefMul M.m10 v0) (coefMul M.m11 v1)) L basis1

/-- /repo/src/gate/update_ops_matrix.cpp:145-168 `one_target_dense_matrix_gate`; `L`, `n` as in `zeroTarget`. -/
def dense1 [Add R] [Mul R] (L n : Nat) (t c v : U64) (M : M22 R) (dim : Nat) : Device R :=
  if L > 0 ∧ 2 ^ n >>> popcount (t ||| c) ≥ L ∧ (t ||| c) &&& (BitVec.ofNat 64 L - 1) = 0 then
    .par _ (dense1Simd L t c v M dim)
  else .par _ (dense1Scalar t c v M dim)

end Verif.Model
