import Verif.Spec.FloatSample
import Verif.Spec.Binary64
import Verif.Spec.Reduction

/-! # Exact results in the arithmetic of 53-bit significands -/

namespace Verif.Proofs
open Verif Verif.Spec Verif.Model

/-- the exponent is determined by the binade -/
theorem ulp_of {r : ℝ} (hr : 0 < r) {k : ℤ} (h1 : (2 : ℝ) ^ k ≤ r) (h2 : r < (2 : ℝ) ^ (k + 1)) : Bin.ulp r = k - 52 := by
  unfold Bin.ulp
  have a : k ≤ Int.log 2 r := (Int.zpow_le_iff_le_log (b := 2) (by norm_num) hr).1 (by push_cast; exact h1)
  have b : Int.log 2 r < k + 1 := (Int.lt_zpow_iff_log_lt (b := 2) (by norm_num) hr).1 (by push_cast; exact h2)
  omega

theorem round_of {x : ℝ} {m : ℤ} (h : |x - m| < 1 / 2) : round x = m := by
  rw [round_eq, Int.floor_eq_iff]
  rw [abs_lt] at h
  constructor <;> linarith

/-- the number next to `r` -/
theorem near_of {r : ℝ} (hr : 0 < r) {k : ℤ} (h1 : (2 : ℝ) ^ k ≤ r) (h2 : r < (2 : ℝ) ^ (k + 1)) {m : ℤ}
    (hm : |r / (2 : ℝ) ^ (k - 52) - m| < 1 / 2) : (Bin.near r).val = m * (2 : ℝ) ^ (k - 52) := by
  rw [Bin.near, dif_pos hr]
  show (round (r / (2 : ℝ) ^ Bin.ulp r) : ℝ) * (2 : ℝ) ^ Bin.ulp r = _
  rw [ulp_of hr h1 h2, round_of hm]

theorem near_val_pos {x : Bin} (h : 0 < x.val) : (Bin.near x.val).val = x.val := by
  have hp : (0 : ℝ) < (2 : ℝ) ^ x.e := by positivity
  have hb : x.m ≤ 2 ^ 53 := (abs_le.1 x.bound).2
  have hlog1 := Int.zpow_log_le_self (b := 2) (by norm_num) h
  push_cast at hlog1
  have hlog2 := Int.lt_zpow_succ_log_self (b := 2) (by norm_num) x.val
  push_cast at hlog2
  generalize Int.log 2 x.val = k at hlog1 hlog2
  have h2p : (0 : ℝ) < (2 : ℝ) ^ (k - 52) := by positivity
  have key : ∃ m : ℤ, x.val = m * (2 : ℝ) ^ (k - 52) := by
    by_cases he : k - 52 ≤ x.e
    · refine ⟨x.m * 2 ^ (x.e - (k - 52)).toNat, ?_⟩
      have e : ((2 : ℝ) ^ (x.e - (k - 52)).toNat) = (2 : ℝ) ^ (x.e - (k - 52)) := by
        rw [← zpow_natCast, Int.toNat_of_nonneg (by omega)]
      push_cast
      rw [e, mul_assoc, ← zpow_add₀ (by norm_num)]
      show (x.m : ℝ) * (2 : ℝ) ^ x.e = _
      congr 2; ring
    · refine ⟨2 ^ 52, ?_⟩
      have e1 : (((2 ^ 52 : ℤ)) : ℝ) * (2 : ℝ) ^ (k - 52) = (2 : ℝ) ^ k := by
        rw [zpow_sub₀ (by norm_num)]; norm_num; ring
      rw [e1]
      refine le_antisymm ?_ hlog1
      have e2 : x.val ≤ 2 ^ 53 * (2 : ℝ) ^ x.e := mul_le_mul_of_nonneg_right (by exact_mod_cast hb) hp.le
      refine e2.trans ?_
      have e3 : (2 : ℝ) ^ 53 * (2 : ℝ) ^ x.e = (2 : ℝ) ^ (53 + x.e) := by
        rw [← zpow_natCast (2 : ℝ) 53, ← zpow_add₀ (by norm_num)]; norm_num
      rw [e3]
      exact zpow_le_zpow_right₀ (by norm_num) (by omega)
  obtain ⟨m, hm⟩ := key
  rw [near_of h hlog1 hlog2 (m := m), ← hm]
  rw [hm, mul_div_assoc, div_self h2p.ne']
  simp

/-- rounding a number that can be represented -/
theorem near_val (x : Bin) : (Bin.near x.val).val = x.val := by
  rcases lt_trichotomy x.val 0 with h | h | h
  · have := near_val_pos (x := -x) (by rw [Bin.val_neg]; linarith)
    rw [Bin.val_neg, Bin.near_neg, Bin.val_neg] at this
    linarith
  · rw [h, Bin.near_zero, Bin.val_zero]
  · exact near_val_pos h

/-- adding zero is exact -/
theorem bin_addZero (Ω : ℝ) : AddZero Bin.val Ω where
  left x y h _ := by
    show (Bin.near (x.val + y.val)).val = _
    rw [h, zero_add, near_val]
  right x y h _ := by
    show (Bin.near (x.val + y.val)).val = _
    rw [h, add_zero, near_val]

theorem near_mono_pos {r r' : ℝ} (h0 : 0 < r) (h : r ≤ r') : (Bin.near r).val ≤ (Bin.near r').val := by
  have h0' : 0 < r' := h0.trans_le h
  rw [Bin.near, dif_pos h0, Bin.near, dif_pos h0']
  show (round (r / (2 : ℝ) ^ Bin.ulp r) : ℝ) * (2 : ℝ) ^ Bin.ulp r ≤ (round (r' / (2 : ℝ) ^ Bin.ulp r') : ℝ) * (2 : ℝ) ^ Bin.ulp r'
  have hlog : Int.log 2 r ≤ Int.log 2 r' := Int.log_mono_right h0 h
  rcases eq_or_lt_of_le hlog with he | hlt
  · have e : Bin.ulp r = Bin.ulp r' := by unfold Bin.ulp; rw [he]
    rw [e]
    refine mul_le_mul_of_nonneg_right ?_ (by positivity)
    have : round (r / (2 : ℝ) ^ Bin.ulp r') ≤ round (r' / (2 : ℝ) ^ Bin.ulp r') := by
      rw [round_eq, round_eq]
      exact Int.floor_le_floor (by gcongr)
    exact_mod_cast this
  · have h1 : (round (r / (2 : ℝ) ^ Bin.ulp r) : ℝ) ≤ 2 ^ 53 := by
      exact_mod_cast (abs_le.1 (Bin.mant_bound h0)).2
    have h2 : (2 : ℝ) ^ 52 ≤ (round (r' / (2 : ℝ) ^ Bin.ulp r') : ℝ) := by
      have h3 : (2 : ℝ) ^ 52 ≤ r' / (2 : ℝ) ^ Bin.ulp r' := by
        rw [le_div_iff₀ (by positivity), ← zpow_natCast (2 : ℝ) 52, ← zpow_add₀ (by norm_num)]
        have := Int.zpow_log_le_self (b := 2) (by norm_num) h0'
        push_cast at this
        refine le_trans (le_of_eq ?_) this
        congr 1
        unfold Bin.ulp; push_cast; ring
      have : (2 : ℤ) ^ 52 ≤ round (r' / (2 : ℝ) ^ Bin.ulp r') := by
        rw [round_eq, Int.le_floor]
        push_cast
        linarith
      exact_mod_cast this
    have e1 : (2 : ℝ) ^ 53 * (2 : ℝ) ^ Bin.ulp r = (2 : ℝ) ^ (Int.log 2 r + 1) := by
      rw [← zpow_natCast (2 : ℝ) 53, ← zpow_add₀ (by norm_num)]
      congr 1
      unfold Bin.ulp; push_cast; ring
    have e2 : (2 : ℝ) ^ 52 * (2 : ℝ) ^ Bin.ulp r' = (2 : ℝ) ^ Int.log 2 r' := by
      rw [← zpow_natCast (2 : ℝ) 52, ← zpow_add₀ (by norm_num)]
      congr 1
      unfold Bin.ulp; push_cast; ring
    calc _ ≤ (2 : ℝ) ^ 53 * (2 : ℝ) ^ Bin.ulp r := mul_le_mul_of_nonneg_right h1 (by positivity)
      _ = (2 : ℝ) ^ (Int.log 2 r + 1) := e1
      _ ≤ (2 : ℝ) ^ Int.log 2 r' := zpow_le_zpow_right₀ (by norm_num) hlt
      _ = (2 : ℝ) ^ 52 * (2 : ℝ) ^ Bin.ulp r' := e2.symm
      _ ≤ _ := mul_le_mul_of_nonneg_right h2 (by positivity)

theorem near_nonneg {r : ℝ} (h : 0 ≤ r) : 0 ≤ (Bin.near r).val := by
  have := Bin.near_error r
  rw [abs_of_nonneg h, abs_le] at this
  have : (2⁻¹ : ℝ) ^ 53 * r ≤ 1 * r := mul_le_mul_of_nonneg_right (by norm_num) h
  linarith

/-- comparison and conversion in this arithmetic -/
theorem bin_compares (Ω : ℝ) : Compares Bin.lib (fun x y => decide (y.val < x.val)) Bin.val Ω where
  gt x y _ _ := by simp
  cast r r' h0 h _ := by
    show (Bin.near r).val ≤ (Bin.near r').val
    rcases eq_or_lt_of_le h0 with rfl | h0
    · rw [Bin.near_zero, Bin.val_zero]
      exact near_nonneg h
    · exact near_mono_pos h0 h

end Verif.Proofs
