import Mathlib.Analysis.Normed.Algebra.Exponential
import Mathlib.Analysis.CStarAlgebra.Exponential
import Mathlib.Analysis.SpecialFunctions.Exponential
import Mathlib.Analysis.Complex.Exponential

/-! # Products of exponentials: exact for commuting factors, an error bound in general -/

namespace Verif.Proofs
open NormedSpace

section
variable {𝔸 : Type*} [NormedRing 𝔸] [NormOneClass 𝔸] [NormedAlgebra ℂ 𝔸] [CompleteSpace 𝔸]

theorem hasSum_exp_real (t : ℝ) : HasSum (fun k : ℕ => ((k.factorial : ℝ))⁻¹ * t ^ k) (Real.exp t) := by
  have := NormedSpace.exp_series_hasSum_exp' (𝕂 := ℝ) t
  rw [← Real.exp_eq_exp_ℝ] at this
  simpa [smul_eq_mul] using this

theorem norm_term_le (x : 𝔸) (k : ℕ) : ‖((k.factorial : ℂ)⁻¹) • x ^ k‖ ≤ ((k.factorial : ℝ))⁻¹ * ‖x‖ ^ k := by
  rw [norm_smul, norm_inv]
  have : ‖(k.factorial : ℂ)‖ = (k.factorial : ℝ) := by simp
  rw [this]
  exact mul_le_mul_of_nonneg_left (norm_pow_le x k) (by positivity)

theorem norm_exp_le (x : 𝔸) : ‖exp x‖ ≤ Real.exp ‖x‖ := by
  have h := NormedSpace.exp_series_hasSum_exp' (𝕂 := ℂ) x
  rw [← h.tsum_eq]
  exact tsum_of_norm_bounded (hasSum_exp_real ‖x‖) (norm_term_le x)

theorem norm_exp_sub_one_le (x : 𝔸) : ‖exp x - 1‖ ≤ Real.exp ‖x‖ - 1 := by
  have h := (hasSum_nat_add_iff' 1).2 (NormedSpace.exp_series_hasSum_exp' (𝕂 := ℂ) x)
  have h2 := (hasSum_nat_add_iff' 1).2 (hasSum_exp_real ‖x‖)
  simp only [Finset.sum_range_one, Nat.factorial_zero, Nat.cast_one, inv_one, pow_zero, one_smul, one_mul] at h h2
  rw [← h.tsum_eq]
  exact tsum_of_norm_bounded h2 (fun k => norm_term_le x (k + 1))

theorem norm_exp_sub_linear_le (x : 𝔸) : ‖exp x - 1 - x‖ ≤ Real.exp ‖x‖ - 1 - ‖x‖ := by
  have h := (hasSum_nat_add_iff' 2).2 (NormedSpace.exp_series_hasSum_exp' (𝕂 := ℂ) x)
  have h2 := (hasSum_nat_add_iff' 2).2 (hasSum_exp_real ‖x‖)
  simp only [Finset.sum_range_succ, Finset.sum_range_zero, zero_add, Nat.factorial_zero, Nat.factorial_one, Nat.cast_one, inv_one, pow_zero,
    pow_one, one_smul, one_mul] at h h2
  rw [sub_sub, sub_sub, ← h.tsum_eq]
  exact tsum_of_norm_bounded h2 (fun k => norm_term_le x (k + 2))

/-- the product of the exponentials of a list -/
noncomputable def expProd (l : List 𝔸) : 𝔸 := (l.map exp).prod

/-- the sum of the norms -/
noncomputable def normSum (l : List 𝔸) : ℝ := (l.map fun x => ‖x‖).sum

theorem normSum_nonneg (l : List 𝔸) : 0 ≤ normSum l := List.sum_nonneg fun _ h => by
  obtain ⟨x, -, rfl⟩ := List.mem_map.1 h; exact norm_nonneg x

theorem norm_sum_le_normSum (l : List 𝔸) : ‖l.sum‖ ≤ normSum l := by
  induction l with
  | nil => simp [normSum]
  | cons x l ih =>
    rw [List.sum_cons]
    exact le_trans (norm_add_le _ _) (by unfold normSum at *; rw [List.map_cons, List.sum_cons]; linarith)

theorem norm_expProd_le (l : List 𝔸) : ‖expProd l‖ ≤ Real.exp (normSum l) := by
  induction l with
  | nil => simp [expProd, normSum]
  | cons x l ih =>
    unfold expProd normSum at *
    rw [List.map_cons, List.prod_cons, List.map_cons, List.sum_cons, Real.exp_add]
    exact le_trans (norm_mul_le _ _) (mul_le_mul (norm_exp_le x) ih (norm_nonneg _) (Real.exp_pos _).le)

theorem norm_expProd_sub_one_le (l : List 𝔸) : ‖expProd l - 1‖ ≤ Real.exp (normSum l) - 1 := by
  induction l with
  | nil => simp [expProd, normSum]
  | cons x l ih =>
    have hp := norm_expProd_le l
    unfold expProd normSum at *
    rw [List.map_cons, List.prod_cons, List.map_cons, List.sum_cons, Real.exp_add]
    have e : exp x * (l.map exp).prod - 1 = (exp x - 1) * (l.map exp).prod + ((l.map exp).prod - 1) := by
      rw [sub_mul, one_mul]; abel
    rw [e]
    refine le_trans (norm_add_le _ _) ?_
    have h1 := le_trans (norm_mul_le (exp x - 1) (l.map exp).prod)
      (mul_le_mul (norm_exp_sub_one_le x) hp (norm_nonneg _) (le_trans (norm_nonneg _) (norm_exp_sub_one_le x)))
    linarith

theorem norm_expProd_sub_linear_le (l : List 𝔸) : ‖expProd l - 1 - l.sum‖ ≤ Real.exp (normSum l) - 1 - normSum l := by
  induction l with
  | nil => simp [expProd, normSum]
  | cons x l ih =>
    have hp := norm_expProd_le l
    have hp1 := norm_expProd_sub_one_le l
    unfold expProd normSum at *
    rw [List.map_cons, List.prod_cons, List.map_cons, List.sum_cons, List.sum_cons, Real.exp_add]
    have e : exp x * (l.map exp).prod - 1 - (x + l.sum) =
        (exp x - 1 - x) * (l.map exp).prod + ((l.map exp).prod - 1 - l.sum) + x * ((l.map exp).prod - 1) := by noncomm_ring
    rw [e]
    refine le_trans (norm_add₃_le) ?_
    have h1 := le_trans (norm_mul_le (exp x - 1 - x) (l.map exp).prod)
      (mul_le_mul (norm_exp_sub_linear_le x) hp (norm_nonneg _) (le_trans (norm_nonneg _) (norm_exp_sub_linear_le x)))
    have h2 := le_trans (norm_mul_le x ((l.map exp).prod - 1)) (mul_le_mul_of_nonneg_left hp1 (norm_nonneg _))
    nlinarith

/-- one step: the product of the exponentials against the exponential of the sum -/
theorem norm_expProd_sub_exp_le (l : List 𝔸) : ‖expProd l - exp l.sum‖ ≤ 2 * (Real.exp (normSum l) - 1 - normSum l) := by
  have h1 := norm_expProd_sub_linear_le l
  have h2 := norm_exp_sub_linear_le l.sum
  have hs := norm_sum_le_normSum l
  have mono : Real.exp ‖l.sum‖ - 1 - ‖l.sum‖ ≤ Real.exp (normSum l) - 1 - normSum l := by
    set a := ‖l.sum‖
    set b := normSum l
    have ha : 0 ≤ a := norm_nonneg _
    have h3 : Real.exp b = Real.exp a * Real.exp (b - a) := by rw [← Real.exp_add]; congr 1; ring
    have h4 := Real.add_one_le_exp (b - a)
    have h5 := Real.one_le_exp ha
    nlinarith [Real.exp_pos a]
  have e : expProd l - exp l.sum = (expProd l - 1 - l.sum) - (exp l.sum - 1 - l.sum) := by abel
  rw [e]
  exact le_trans (norm_sub_le _ _) (by linarith)

/-- powers of contractions -/
theorem norm_pow_sub_pow_le {P Q : 𝔸} (hP : ‖P‖ ≤ 1) (hQ : ‖Q‖ ≤ 1) (r : ℕ) : ‖P ^ r - Q ^ r‖ ≤ r * ‖P - Q‖ := by
  induction r with
  | zero => simp
  | succ r ih =>
    have e : P ^ (r + 1) - Q ^ (r + 1) = P * (P ^ r - Q ^ r) + (P - Q) * Q ^ r := by
      rw [pow_succ', pow_succ']; noncomm_ring
    rw [e]
    refine le_trans (norm_add_le _ _) ?_
    have h1 := norm_mul_le P (P ^ r - Q ^ r)
    have h2 := norm_mul_le (P - Q) (Q ^ r)
    have h3 : ‖Q ^ r‖ ≤ 1 := le_trans (norm_pow_le Q r) (pow_le_one₀ (norm_nonneg _) hQ)
    have h4 : ‖P‖ * ‖P ^ r - Q ^ r‖ ≤ ‖P ^ r - Q ^ r‖ := mul_le_of_le_one_left (norm_nonneg _) hP
    have h5 : ‖P - Q‖ * ‖Q ^ r‖ ≤ ‖P - Q‖ := mul_le_of_le_one_right (norm_nonneg _) h3
    push_cast
    linarith

/-- `r` steps of size `1 / r`, for contractions -/
theorem trotter_bound (l : List 𝔸) (r : ℕ) (hr : 0 < r)
    (hP : ‖expProd (l.map fun x => (r : ℂ)⁻¹ • x)‖ ≤ 1) (hQ : ‖exp ((r : ℂ)⁻¹ • l.sum)‖ ≤ 1) :
    ‖expProd (l.map fun x => (r : ℂ)⁻¹ • x) ^ r - exp l.sum‖ ≤ 2 * normSum l ^ 2 / r := by
  have hr0 : (0 : ℝ) < r := by exact_mod_cast hr
  have hs : (l.map fun x => (r : ℂ)⁻¹ • x).sum = (r : ℂ)⁻¹ • l.sum := by rw [List.smul_sum]
  have hn : normSum (l.map fun x => (r : ℂ)⁻¹ • x) = normSum l / r := by
    unfold normSum
    rw [List.map_map]
    have : ((fun x : 𝔸 => ‖x‖) ∘ fun x => (r : ℂ)⁻¹ • x) = fun x => ‖x‖ * (r : ℝ)⁻¹ := by
      funext x; simp [norm_smul, mul_comm]
    rw [this, List.sum_map_mul_right, div_eq_mul_inv]
  have hpow : exp l.sum = exp ((r : ℂ)⁻¹ • l.sum) ^ r := by
    let _ : NormedAlgebra ℚ 𝔸 := NormedAlgebra.restrictScalars ℚ ℂ 𝔸
    rw [← NormedSpace.exp_nsmul]
    congr 1
    rw [← Nat.cast_smul_eq_nsmul ℂ, smul_smul, mul_inv_cancel₀ (by exact_mod_cast hr.ne'), one_smul]
  set a := normSum l with ha
  have ha0 : 0 ≤ a := normSum_nonneg l
  rcases le_or_gt a r with har | har
  · rw [hpow]
    refine le_trans (norm_pow_sub_pow_le hP hQ r) ?_
    have h1 := norm_expProd_sub_exp_le (l.map fun x => (r : ℂ)⁻¹ • x)
    rw [hs, hn] at h1
    have h2 := Real.abs_exp_sub_one_sub_id_le (x := a / r) (by rw [abs_of_nonneg (by positivity), div_le_one hr0]; exact har)
    have h3 := le_trans (le_abs_self _) h2
    calc (r : ℝ) * _ ≤ r * (2 * (a / r) ^ 2) := by
          apply mul_le_mul_of_nonneg_left _ hr0.le
          linarith
      _ = 2 * a ^ 2 / r := by field_simp
  · have h1 : ‖expProd (l.map fun x => (r : ℂ)⁻¹ • x) ^ r‖ ≤ 1 := le_trans (norm_pow_le _ r) (pow_le_one₀ (norm_nonneg _) hP)
    have h2 : ‖exp l.sum‖ ≤ 1 := by
      rw [hpow]; exact le_trans (norm_pow_le _ r) (pow_le_one₀ (norm_nonneg _) hQ)
    refine le_trans (norm_sub_le _ _) (le_trans (add_le_add h1 h2) ?_)
    rw [le_div_iff₀ hr0]
    have : (1 : ℝ) ≤ r := by exact_mod_cast hr
    nlinarith

end

section
variable {𝔸 : Type*} [NormedRing 𝔸] [NormedAlgebra ℂ 𝔸] [CompleteSpace 𝔸]

/-- commuting factors: the product of the exponentials is the exponential of the sum -/
theorem expProd_commute (l : List 𝔸) (h : l.Pairwise Commute) : (l.map exp).prod = exp l.sum := by
  let _ : NormedAlgebra ℚ 𝔸 := NormedAlgebra.restrictScalars ℚ ℂ 𝔸
  induction l with
  | nil => simp
  | cons x l ih =>
    rw [List.pairwise_cons] at h
    rw [List.map_cons, List.prod_cons, List.sum_cons, ih h.2, NormedSpace.exp_add_of_commute]
    exact Commute.list_sum_right _ _ fun y hy => h.1 y hy

end

end Verif.Proofs
