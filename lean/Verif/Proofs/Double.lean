import Verif.Spec.Decimal
import Mathlib.Tactic.Ring

/-! # Seventeen digits determine a double -/

namespace Verif.Proofs
open Verif.Spec

theorem double_gap {x y : ℝ} (hx : IsDouble x) (hy : IsDouble y) (h : x ≠ y) : min |x| |y| < |x - y| * 2 ^ 53 := by
  obtain ⟨m, e, hm, -, -, rfl⟩ := hx
  obtain ⟨m', e', hm', -, -, rfl⟩ := hy
  wlog hle : e ≤ e' generalizing m e m' e'
  · rw [min_comm, abs_sub_comm]
    exact this m' e' hm' m e hm (Ne.symm h) (by omega)
  have hd : (m : ℝ) * (2 : ℝ) ^ e - m' * (2 : ℝ) ^ e' = ((m - m' * 2 ^ (e' - e).toNat : ℤ) : ℝ) * (2 : ℝ) ^ e := by
    have : (2 : ℝ) ^ e' = (2 : ℝ) ^ (e' - e).toNat * (2 : ℝ) ^ e := by
      rw [← zpow_natCast, Int.toNat_of_nonneg (by omega), ← zpow_add₀ (by norm_num)]
      congr 1
      omega
    rw [this]
    push_cast
    ring
  have hne : m - m' * 2 ^ (e' - e).toNat ≠ 0 := by
    intro h0
    rw [h0] at hd
    exact h (by simpa [sub_eq_zero] using hd)
  have hp : (0 : ℝ) < (2 : ℝ) ^ e := by positivity
  rw [hd, abs_mul, abs_of_pos hp]
  refine lt_of_le_of_lt (min_le_left _ _) ?_
  rw [abs_mul, abs_of_pos hp]
  have h1 : (1 : ℝ) ≤ |((m - m' * 2 ^ (e' - e).toNat : ℤ) : ℝ)| := by
    rw [← Int.cast_abs]
    exact_mod_cast Int.one_le_abs hne
  have h2 : |(m : ℝ)| < 2 ^ 53 := by
    rw [← Int.cast_abs]
    exact_mod_cast hm
  nlinarith

/-- the nearest double to a number that is `x` rounded to 17 digits is `x` -/
theorem double_of_rounded {x v r : ℝ} (hx : IsDouble x) (hv : Rounded17 x v) (hr : NearestDouble v r) : r = x := by
  obtain ⟨k, hk, -, hd⟩ := hv
  by_contra hne
  have hx0 : 0 < x := lt_of_lt_of_le (by positivity) hk
  have h1 := hr.2 x hx
  have h16 : (10 : ℝ) ^ (k - 16) = (10 : ℝ) ^ k / 10 ^ 16 := by
    rw [zpow_sub₀ (by norm_num)]
    norm_num
  have h2 : |x - r| ≤ x / 10 ^ 16 := by
    have e : x - r = -(v - x) + (v - r) := by ring
    have := abs_add_le (-(v - x)) (v - r)
    rw [abs_neg] at this
    rw [e]
    have h3 : (10 : ℝ) ^ (k - 16) ≤ x / 10 ^ 16 := by
      rw [h16]
      gcongr
    linarith
  have h4 := double_gap hx hr.1 (Ne.symm hne)
  rw [abs_of_pos hx0] at h4
  have h5 : x - x / 10 ^ 16 ≤ |r| := by
    have := abs_sub_abs_le_abs_sub x r
    rw [abs_of_pos hx0] at this
    linarith
  have h6 : x - x / 10 ^ 16 ≤ min x |r| := by
    refine le_min ?_ h5
    have : 0 < x / 10 ^ 16 := by positivity
    linarith
  have h7 : |x - r| * 2 ^ 53 ≤ x / 10 ^ 16 * 2 ^ 53 := by gcongr
  have : x - x / 10 ^ 16 < x / 10 ^ 16 * 2 ^ 53 := by linarith
  nlinarith

end Verif.Proofs
