import Verif.Spec.Rounding
import Verif.Proofs.FloatRuns

/-! # Rounding errors of the arithmetic on complex numbers -/

namespace Verif.Proofs
open Verif Verif.Spec Verif.Model
attribute [-simp] BitVec.getLsbD_eq_getElem

theorem round_sum {u η X Y p q r : ℝ} (hu0 : 0 ≤ u) (hη0 : 0 ≤ η) (hu : u ≤ 1 / 64)
    (hp : |p - X| ≤ u * |X| + η) (hq : |q - Y| ≤ u * |Y| + η) (hr : |r - (p + q)| ≤ u * |p + q|) :
    |r - (X + Y)| ≤ 5 / 2 * u * (|X| + |Y|) + 5 / 2 * η := by
  have h1 : |p| ≤ |X| + (u * |X| + η) := by
    have := abs_add_le (p - X) X; rw [sub_add_cancel] at this; linarith
  have h2 : |q| ≤ |Y| + (u * |Y| + η) := by
    have := abs_add_le (q - Y) Y; rw [sub_add_cancel] at this; linarith
  have h3 := abs_add_le p q
  have h4 : |r - (X + Y)| ≤ |r - (p + q)| + |p - X| + |q - Y| := by
    rw [show r - (X + Y) = (r - (p + q)) + (p - X) + (q - Y) by ring]; exact abs_add_three _ _ _
  have hX := abs_nonneg X
  have hY := abs_nonneg Y
  have h5 : u * |p + q| ≤ u * (|X| + |Y| + u * (|X| + |Y|) + 2 * η) := mul_le_mul_of_nonneg_left (by linarith) hu0
  have h6 : u * (u * (|X| + |Y|)) ≤ 1 / 64 * (u * (|X| + |Y|)) := mul_le_mul_of_nonneg_right hu (by positivity)
  have h7 : u * η ≤ 1 / 64 * η := mul_le_mul_of_nonneg_right hu hη0
  have h8 : 0 ≤ u * (|X| + |Y|) := by positivity
  nlinarith

theorem parts_mul_le (x y : ℂ) : (|x.re| + |x.im|) * (|y.re| + |y.im|) ≤ 2 * (‖x‖ * ‖y‖) := by
  have h : ∀ z : ℂ, (|z.re| + |z.im|) ^ 2 ≤ 2 * ‖z‖ ^ 2 := by
    intro z
    rw [← Complex.normSq_eq_norm_sq, Complex.normSq_apply]
    have := sq_abs z.re
    have := sq_abs z.im
    nlinarith [sq_nonneg (|z.re| - |z.im|)]
  have h1 := h x
  have h2 := h y
  have h3 : ((|x.re| + |x.im|) * (|y.re| + |y.im|)) ^ 2 ≤ (2 * (‖x‖ * ‖y‖)) ^ 2 := by
    rw [mul_pow]
    calc _ ≤ (2 * ‖x‖ ^ 2) * (2 * ‖y‖ ^ 2) := mul_le_mul h1 h2 (by positivity) (by positivity)
      _ = _ := by ring
  exact le_of_sq_le_sq h3 (by positivity)

theorem norm_le_parts {x y : ℂ} {a b : ℝ} (h1 : |x.re - y.re| ≤ a) (h2 : |x.im - y.im| ≤ b) : ‖x - y‖ ≤ a + b := by
  have := Complex.norm_le_abs_re_add_abs_im (x - y)
  rw [Complex.sub_re, Complex.sub_im] at this
  linarith

theorem parts_le (x : ℂ) : |x.re| + |x.im| ≤ 2 * ‖x‖ := by
  have := Complex.abs_re_le_norm x
  have := Complex.abs_im_le_norm x
  linarith

section
variable {F : Type} [Zero F] [One F] [Add F] [Sub F] [Mul F] [Neg F] {lib : FloatLib F} {val : F → ℝ} {u w η Ω : ℝ}

local notation "⟪" x "⟫" => cval val x

theorem _root_.Verif.Spec.Accurate.add64 (A : Accurate lib val u w η Ω) (x y : F) (hx : |val x| ≤ 64) (hy : |val y| ≤ 64) :
    |val (x + y) - (val x + val y)| ≤ u * |val x + val y| := A.add x y (hx.trans A.big) (hy.trans A.big)

theorem cval_neg (A : Accurate lib val u w η Ω) (x : Cx F) : ⟪-x⟫ = -⟪x⟫ := by
  apply Complex.ext
  · exact A.neg _
  · exact A.neg _

theorem cval_one (A : Accurate lib val u w η Ω) : ⟪(1 : Cx F)⟫ = 1 := Complex.ext A.one A.zero
theorem cval_zero (A : Accurate lib val u w η Ω) : ⟪(0 : Cx F)⟫ = 0 := Complex.ext A.zero A.zero
theorem cval_i (A : Accurate lib val u w η Ω) : ⟪(⟨0, 1⟩ : Cx F)⟫ = Complex.I := Complex.ext A.zero A.one
theorem cval_ni (A : Accurate lib val u w η Ω) : ⟪(⟨0, -1⟩ : Cx F)⟫ = -Complex.I :=
  Complex.ext (by simp [cval, A.zero]) (by simp [cval, A.neg, A.one])
theorem cval_m1 (A : Accurate lib val u w η Ω) : ⟪(⟨-1, 0⟩ : Cx F)⟫ = -1 :=
  Complex.ext (by simp [cval, A.neg, A.one]) (by simp [cval, A.zero])

/-- the products of the parts stay in range -/
theorem prod_range {x y : ℂ} (h : ‖x‖ * ‖y‖ ≤ 16) : |x.re * y.re| ≤ 16 ∧ |x.im * y.im| ≤ 16 ∧ |x.re * y.im| ≤ 16 ∧ |x.im * y.re| ≤ 16 := by
  have a1 := Complex.abs_re_le_norm x
  have a2 := Complex.abs_im_le_norm x
  have b1 := Complex.abs_re_le_norm y
  have b2 := Complex.abs_im_le_norm y
  have n1 := norm_nonneg x
  refine ⟨?_, ?_, ?_, ?_⟩ <;> rw [abs_mul] <;> refine le_trans (mul_le_mul ?_ ?_ (abs_nonneg _) n1) h <;> assumption

theorem near_range {p X u η : ℝ} (hp : |p - X| ≤ u * |X| + η) (hu : u ≤ 1 / 64) (hη : η ≤ 1 / 64) (hX : |X| ≤ 16) : |p| ≤ 17 := by
  have := abs_add_le (p - X) X; rw [sub_add_cancel] at this
  nlinarith [abs_nonneg X]

/-- rounding error of the complex product -/
theorem mul_err (A : Accurate lib val u w η Ω) (hu : u ≤ 1 / 64) (hη : η ≤ 1 / 64) (x y : Cx F) (hx : ‖⟪x⟫‖ ≤ 64) (hy : ‖⟪y⟫‖ ≤ 64)
    (h : ‖⟪x⟫‖ * ‖⟪y⟫‖ ≤ 16) :
    ‖⟪x * y⟫ - ⟪x⟫ * ⟪y⟫‖ ≤ 5 * u * (‖⟪x⟫‖ * ‖⟪y⟫‖) + 5 * η := by
  obtain ⟨r1, r2, r3, r4⟩ := prod_range h
  have xr : |val x.re| ≤ 64 := le_trans (Complex.abs_re_le_norm ⟪x⟫) hx
  have xi : |val x.im| ≤ 64 := le_trans (Complex.abs_im_le_norm ⟪x⟫) hx
  have yr : |val y.re| ≤ 64 := le_trans (Complex.abs_re_le_norm ⟪y⟫) hy
  have yi : |val y.im| ≤ 64 := le_trans (Complex.abs_im_le_norm ⟪y⟫) hy
  have p1 := A.mul x.re y.re xr yr
  have p2 := A.mul x.im y.im xi yi
  have p3 := A.mul x.re y.im xr yi
  have p4 := A.mul x.im y.re xi yr
  have q1 := near_range p1 hu hη r1
  have q2 := near_range p2 hu hη r2
  have q3 := near_range p3 hu hη r3
  have q4 := near_range p4 hu hη r4
  have s1 := A.sub (x.re * y.re) (x.im * y.im) (by linarith) (by linarith)
  have s2 := A.add64 (x.re * y.im) (x.im * y.re) (by linarith) (by linarith)
  have t1 := round_sum A.u_nonneg A.eta_nonneg hu p1 (q := -val (x.im * y.im)) (Y := -(val x.im * val y.im))
    (by rw [abs_neg, ← neg_sub', abs_neg]; exact p2) (by rw [← sub_eq_add_neg]; exact s1)
  have t2 := round_sum A.u_nonneg A.eta_nonneg hu p3 p4 s2
  rw [abs_neg] at t1
  have e1 : (⟪x * y⟫ - ⟪x⟫ * ⟪y⟫).re = val (x.re * y.re - x.im * y.im) - (val x.re * val y.re + -(val x.im * val y.im)) := by
    simp only [Complex.sub_re, Complex.mul_re, cval]
    rw [← sub_eq_add_neg]; rfl
  have e2 : (⟪x * y⟫ - ⟪x⟫ * ⟪y⟫).im = val (x.re * y.im + x.im * y.re) - (val x.re * val y.im + val x.im * val y.re) := by
    simp only [Complex.sub_im, Complex.mul_im, cval]
    rfl
  have h1 := Complex.norm_le_abs_re_add_abs_im (⟪x * y⟫ - ⟪x⟫ * ⟪y⟫)
  rw [e1, e2] at h1
  have h2 := parts_mul_le ⟪x⟫ ⟪y⟫
  simp only [cval] at h2
  have h3 : |val x.re * val y.re| + |val x.im * val y.im| + (|val x.re * val y.im| + |val x.im * val y.re|) ≤ 2 * (‖⟪x⟫‖ * ‖⟪y⟫‖) := by
    simp only [abs_mul, cval]
    nlinarith
  nlinarith [mul_le_mul_of_nonneg_left h3 A.u_nonneg]

/-- rounding error of the product in SIMD lanes -/
theorem laneMul_err (A : Accurate lib val u w η Ω) (hu : u ≤ 1 / 64) (hη : η ≤ 1 / 64) (x y : Cx F) (hx : ‖⟪x⟫‖ ≤ 64) (hy : ‖⟪y⟫‖ ≤ 64)
    (h : ‖⟪x⟫‖ * ‖⟪y⟫‖ ≤ 16) :
    ‖⟪laneMul x y⟫ - ⟪x⟫ * ⟪y⟫‖ ≤ 5 * u * (‖⟪x⟫‖ * ‖⟪y⟫‖) + 5 * η := by
  obtain ⟨r1, r2, r3, r4⟩ := prod_range h
  have xr : |val x.re| ≤ 64 := le_trans (Complex.abs_re_le_norm ⟪x⟫) hx
  have xi : |val x.im| ≤ 64 := le_trans (Complex.abs_im_le_norm ⟪x⟫) hx
  have yr : |val y.re| ≤ 64 := le_trans (Complex.abs_re_le_norm ⟪y⟫) hy
  have yi : |val y.im| ≤ 64 := le_trans (Complex.abs_im_le_norm ⟪y⟫) hy
  have p1 := A.mul x.re y.re xr yr
  have r2' : |val x.im * val (-y.im)| ≤ 16 := by rw [A.neg, mul_neg, abs_neg]; exact r2
  have p2 := A.mul x.im (-y.im) xi (by rw [A.neg, abs_neg]; exact yi)
  have p3 := A.mul x.re y.im xr yi
  have p4 := A.mul x.im y.re xi yr
  have q1 := near_range p1 hu hη r1
  have q2 := near_range p2 hu hη r2'
  have q3 := near_range p3 hu hη r3
  have q4 := near_range p4 hu hη r4
  have s1 := A.add64 (x.re * y.re) (x.im * -y.im) (by linarith) (by linarith)
  have s2 := A.add64 (x.re * y.im) (x.im * y.re) (by linarith) (by linarith)
  have t1 := round_sum A.u_nonneg A.eta_nonneg hu p1 p2 s1
  have t2 := round_sum A.u_nonneg A.eta_nonneg hu p3 p4 s2
  have e1 : (⟪laneMul x y⟫ - ⟪x⟫ * ⟪y⟫).re = val (x.re * y.re + x.im * -y.im) - (val x.re * val y.re + val x.im * val (-y.im)) := by
    simp only [Complex.sub_re, Complex.mul_re, cval, A.neg, mul_neg]
    rw [← sub_eq_add_neg]; rfl
  have e2 : (⟪laneMul x y⟫ - ⟪x⟫ * ⟪y⟫).im = val (x.re * y.im + x.im * y.re) - (val x.re * val y.im + val x.im * val y.re) := by
    simp only [Complex.sub_im, Complex.mul_im, cval]
    rfl
  have h1 := Complex.norm_le_abs_re_add_abs_im (⟪laneMul x y⟫ - ⟪x⟫ * ⟪y⟫)
  rw [e1, e2] at h1
  have h2 := parts_mul_le ⟪x⟫ ⟪y⟫
  simp only [cval] at h2
  have h3 : |val x.re * val y.re| + |val x.im * val (-y.im)| + (|val x.re * val y.im| + |val x.im * val y.re|) ≤ 2 * (‖⟪x⟫‖ * ‖⟪y⟫‖) := by
    simp only [abs_mul, A.neg, abs_neg, cval]
    nlinarith
  nlinarith [mul_le_mul_of_nonneg_left h3 A.u_nonneg]

/-- rounding error of the complex sum -/
theorem add_err_big (A : Accurate lib val u w η Ω) (x y : Cx F) (hx : ‖⟪x⟫‖ ≤ Ω) (hy : ‖⟪y⟫‖ ≤ Ω) :
    ‖⟪x + y⟫ - (⟪x⟫ + ⟪y⟫)‖ ≤ 2 * u * ‖⟪x⟫ + ⟪y⟫‖ := by
  have s1 := A.add x.re y.re (le_trans (Complex.abs_re_le_norm ⟪x⟫) hx) (le_trans (Complex.abs_re_le_norm ⟪y⟫) hy)
  have s2 := A.add x.im y.im (le_trans (Complex.abs_im_le_norm ⟪x⟫) hx) (le_trans (Complex.abs_im_le_norm ⟪y⟫) hy)
  have := norm_le_parts (x := ⟪x + y⟫) (y := ⟪x⟫ + ⟪y⟫) s1 s2
  have h2 : |val x.re + val y.re| + |val x.im + val y.im| ≤ 2 * ‖⟪x⟫ + ⟪y⟫‖ := parts_le (⟪x⟫ + ⟪y⟫)
  nlinarith [mul_le_mul_of_nonneg_left h2 A.u_nonneg]

theorem add_err (A : Accurate lib val u w η Ω) (x y : Cx F) (hx : ‖⟪x⟫‖ ≤ 64) (hy : ‖⟪y⟫‖ ≤ 64) :
    ‖⟪x + y⟫ - (⟪x⟫ + ⟪y⟫)‖ ≤ 2 * u * ‖⟪x⟫ + ⟪y⟫‖ := add_err_big A x y (hx.trans A.big) (hy.trans A.big)

theorem sub_err (A : Accurate lib val u w η Ω) (x y : Cx F) (hx : ‖⟪x⟫‖ ≤ 64) (hy : ‖⟪y⟫‖ ≤ 64) :
    ‖⟪x - y⟫ - (⟪x⟫ - ⟪y⟫)‖ ≤ 2 * u * ‖⟪x⟫ - ⟪y⟫‖ := by
  have s1 := A.sub x.re y.re (le_trans (Complex.abs_re_le_norm ⟪x⟫) hx) (le_trans (Complex.abs_re_le_norm ⟪y⟫) hy)
  have s2 := A.sub x.im y.im (le_trans (Complex.abs_im_le_norm ⟪x⟫) hx) (le_trans (Complex.abs_im_le_norm ⟪y⟫) hy)
  have := norm_le_parts (x := ⟪x - y⟫) (y := ⟪x⟫ - ⟪y⟫) s1 s2
  have h2 : |val x.re - val y.re| + |val x.im - val y.im| ≤ 2 * ‖⟪x⟫ - ⟪y⟫‖ := parts_le (⟪x⟫ - ⟪y⟫)
  nlinarith [mul_le_mul_of_nonneg_left h2 A.u_nonneg]

end

end Verif.Proofs
