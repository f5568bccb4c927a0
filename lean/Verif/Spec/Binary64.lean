import Verif.Spec.Rounding
import Mathlib.Algebra.Order.Round
import Mathlib.Data.Int.Log

/-!
# An arithmetic that meets the specification of accuracy

Binary floating-point numbers with significands of 53 bits and exponents without limits, each operation rounded to
nearest.  It serves to show that the hypotheses of the theorems on rounding errors can be met.
-/

namespace Verif.Spec
open Verif Verif.Model

/-- the number `m * 2 ^ e` with a significand of at most 53 bits -/
@[ext] structure Bin where
  m : ℤ
  e : ℤ
  bound : |m| ≤ 2 ^ 53

namespace Bin

/-- the number meant -/
noncomputable def val (x : Bin) : ℝ := x.m * (2 : ℝ) ^ x.e

/-- the exponent of the last bit of a positive number with 53 significant bits -/
noncomputable def ulp (r : ℝ) : ℤ := Int.log 2 r - 52

theorem mant_bound {r : ℝ} (hr : 0 < r) : |round (r / (2 : ℝ) ^ ulp r)| ≤ 2 ^ 53 := by
  have hp : (0 : ℝ) < 2 ^ ulp r := by positivity
  have h1 : r / (2 : ℝ) ^ ulp r < 2 ^ 53 := by
    rw [div_lt_iff₀ hp]
    have := Int.lt_zpow_succ_log_self (b := 2) (by norm_num) r
    have e : ((2 : ℕ) : ℝ) ^ (Int.log 2 r + 1) = 2 ^ 53 * (2 : ℝ) ^ ulp r := by
      rw [← zpow_natCast (2 : ℝ) 53, ← zpow_add₀ (by norm_num)]
      unfold ulp; push_cast; congr 1; ring
    rw [e] at this
    exact this
  have h0 : 0 ≤ r / (2 : ℝ) ^ ulp r := by positivity
  have h2 := abs_sub_round (r / (2 : ℝ) ^ ulp r)
  rw [abs_le] at h2
  rw [abs_le]
  constructor
  · have : (-1 : ℝ) < round (r / (2 : ℝ) ^ ulp r) := by linarith
    have : (-1 : ℤ) < round (r / (2 : ℝ) ^ ulp r) := by exact_mod_cast this
    omega
  · have : (round (r / (2 : ℝ) ^ ulp r) : ℝ) < 2 ^ 53 + 1 := by linarith
    have : round (r / (2 : ℝ) ^ ulp r) < 2 ^ 53 + 1 := by exact_mod_cast this
    omega

instance : Zero Bin := ⟨⟨0, 0, by norm_num⟩⟩
instance : One Bin := ⟨⟨1, 0, by norm_num⟩⟩
instance : Neg Bin := ⟨fun x => ⟨-x.m, x.e, by rw [abs_neg]; exact x.bound⟩⟩

open Classical in
/-- the nearest number to `r`; ties are rounded away from zero -/
noncomputable def near (r : ℝ) : Bin :=
  if h : 0 < r then ⟨round (r / (2 : ℝ) ^ ulp r), ulp r, mant_bound h⟩
  else if h : 0 < -r then -⟨round (-r / (2 : ℝ) ^ ulp (-r)), ulp (-r), mant_bound h⟩
  else 0

noncomputable instance : Add Bin := ⟨fun x y => near (x.val + y.val)⟩
noncomputable instance : Sub Bin := ⟨fun x y => near (x.val - y.val)⟩
noncomputable instance : Mul Bin := ⟨fun x y => near (x.val * y.val)⟩

/-- correctly rounded library functions -/
noncomputable def lib : FloatLib Bin where
  cast := near
  half x := ⟨x.m, x.e - 1, x.bound⟩
  cos x := near (Real.cos x.val)
  sin x := near (Real.sin x.val)
  exp x := near (Real.exp x.val)
  cosh x := near (Real.cosh x.val)
  sinh x := near (Real.sinh x.val)

theorem val_zero : (0 : Bin).val = 0 := by show ((0 : ℤ) : ℝ) * _ = 0; simp
theorem val_one : (1 : Bin).val = 1 := by show ((1 : ℤ) : ℝ) * (2 : ℝ) ^ (0 : ℤ) = 1; simp
theorem val_neg (x : Bin) : (-x).val = -x.val := by show ((-x.m : ℤ) : ℝ) * (2 : ℝ) ^ x.e = -(x.m * (2 : ℝ) ^ x.e); push_cast; ring

theorem near_zero : near 0 = 0 := by simp [near]

theorem near_neg (r : ℝ) : near (-r) = -near r := by
  unfold near
  rcases lt_trichotomy r 0 with h | h | h
  · rw [dif_pos (by linarith), dif_neg (by linarith), dif_pos (by linarith)]
    ext
    · show _ = -(-_); rw [neg_neg]
    · rfl
  · subst h; simp; rfl
  · simp only [neg_neg]
    rw [dif_neg (by linarith), dif_pos h, dif_pos h]

theorem near_pos {r : ℝ} (h : 0 < r) : |(near r).val - r| ≤ 2⁻¹ ^ 53 * r := by
  rw [near, dif_pos h]
  show |(round (r / (2 : ℝ) ^ ulp r) : ℝ) * (2 : ℝ) ^ ulp r - r| ≤ _
  have hp : (0 : ℝ) < 2 ^ ulp r := by positivity
  have e : (round (r / (2 : ℝ) ^ ulp r) : ℝ) * (2 : ℝ) ^ ulp r - r =
      -((r / (2 : ℝ) ^ ulp r - round (r / (2 : ℝ) ^ ulp r)) * (2 : ℝ) ^ ulp r) := by field_simp; ring
  rw [e, abs_neg, abs_mul, abs_of_pos hp]
  have h1 := abs_sub_round (r / (2 : ℝ) ^ ulp r)
  have h2 : (2 : ℝ) ^ ulp r = 2⁻¹ ^ 52 * (2 : ℝ) ^ Int.log 2 r := by
    unfold ulp
    rw [zpow_sub₀ (by norm_num)]; norm_num; ring
  have h3 := Int.zpow_log_le_self (b := 2) (by norm_num) h
  push_cast at h3
  calc _ ≤ 1 / 2 * (2 : ℝ) ^ ulp r := mul_le_mul_of_nonneg_right h1 hp.le
    _ = 2⁻¹ ^ 53 * (2 : ℝ) ^ Int.log 2 r := by rw [h2]; ring
    _ ≤ _ := mul_le_mul_of_nonneg_left h3 (by positivity)

theorem near_error (r : ℝ) : |(near r).val - r| ≤ 2⁻¹ ^ 53 * |r| := by
  rcases lt_trichotomy r 0 with h | h | h
  · have := near_pos (r := -r) (by linarith)
    rw [near_neg, val_neg, ← neg_sub', abs_neg] at this
    rw [abs_of_neg h]; exact this
  · subst h; rw [near_zero, val_zero]; simp
  · rw [abs_of_pos h]; exact near_pos h

theorem near_one : (near 1).val = 1 := by
  rw [near, dif_pos one_pos]
  show (round ((1 : ℝ) / (2 : ℝ) ^ ulp 1) : ℝ) * (2 : ℝ) ^ ulp 1 = 1
  have e : ulp 1 = -52 := by unfold ulp; rw [Int.log_one_right]; rfl
  have : (1 : ℝ) / (2 : ℝ) ^ ulp 1 = ((2 ^ 52 : ℤ) : ℝ) := by rw [e]; norm_num
  rw [this, round_intCast, e]
  norm_num

theorem val_half (x : Bin) : (lib.half x).val = x.val / 2 := by
  show (x.m : ℝ) * (2 : ℝ) ^ (x.e - 1) = _ * _ / 2
  rw [zpow_sub₀ (by norm_num)]; simp; ring

/-- 53 bits give the unit roundoff `2⁻⁵³` and no underflow -/
theorem accurate {Ω : ℝ} (big : 64 ≤ Ω) : Accurate lib val (2⁻¹ ^ 53) (2⁻¹ ^ 53) 0 Ω where
  big := big
  u_nonneg := by positivity
  w_nonneg := by positivity
  eta_nonneg := le_refl _
  zero := val_zero
  one := val_one
  neg := val_neg
  add _ _ _ _ := near_error _
  sub _ _ _ _ := near_error _
  mul _ _ _ _ := by rw [add_zero]; exact near_error _
  mul_zero x y h _ _ := by
    show (near (x.val * y.val)).val = 0
    rw [mul_eq_zero.2 h, near_zero, val_zero]
  cast r _ := by rw [add_zero]; exact near_error r
  cast_zero := by show (near 0).val = 0; rw [near_zero, val_zero]
  half x _ := by rw [val_half]; simp
  half_zero x h := by rw [val_half, h]; simp
  cos x _ := le_trans (near_error _) (by have := Real.abs_cos_le_one x.val; nlinarith [show (0 : ℝ) < 2⁻¹ ^ 53 by positivity])
  sin x _ := le_trans (near_error _) (by have := Real.abs_sin_le_one x.val; nlinarith [show (0 : ℝ) < 2⁻¹ ^ 53 by positivity])
  exp_zero x h := by show (near (Real.exp x.val)).val = 1; rw [h, Real.exp_zero, near_one]
  cosh_zero x h := by show (near (Real.cosh x.val)).val = 1; rw [h, Real.cosh_zero, near_one]
  sinh_zero x h := by show (near (Real.sinh x.val)).val = 0; rw [h, Real.sinh_zero, near_zero, val_zero]

theorem signLaws : SignLaws Bin where
  sub_eq x y := by
    show near (x.val - y.val) = near (x.val + (-y).val)
    rw [val_neg, sub_eq_add_neg]
  mul_neg x y := by
    show near (x.val * (-y).val) = -near (x.val * y.val)
    rw [val_neg, mul_neg, near_neg]
  mul_comm x y := by
    show near (x.val * y.val) = near (y.val * x.val)
    rw [mul_comm]
  add_comm x y := by
    show near (x.val + y.val) = near (y.val + x.val)
    rw [add_comm]

end Bin

end Verif.Spec
