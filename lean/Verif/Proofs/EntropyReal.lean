import Verif.Spec.Entropy
import Mathlib.Analysis.SpecialFunctions.Log.NegMulLog
import Mathlib.Analysis.Complex.ExponentialBounds

/-! # The function `p log (1/p)` -/

namespace Verif.Proofs
open Verif Verif.Spec Verif.Model

/-- continued by zero to negative numbers -/
theorem plogp_eq {p : ℝ} (h : 0 ≤ p) : plogp p = Real.negMulLog p / Real.log 2 := by
  unfold plogp Real.negMulLog
  rcases h.lt_or_eq with h | h
  · rw [if_pos h, one_div, Real.logb_inv, Real.logb]; ring
  · rw [← h]; simp

theorem plogp_neg {p : ℝ} (h : p ≤ 0) : plogp p = 0 := if_neg (not_lt.2 h)

/-- subadditivity -/
theorem nml_sub {a q : ℝ} (ha : 0 ≤ a) (hq : a ≤ q) : Real.negMulLog q ≤ Real.negMulLog a + Real.negMulLog (q - a) := by
  rcases ha.lt_or_eq with ha | ha
  · rcases hq.lt_or_eq with hq | hq
    · have h1 : a * Real.log a ≤ a * Real.log q := mul_le_mul_of_nonneg_left (Real.log_le_log ha hq.le) ha.le
      have h2 : (q - a) * Real.log (q - a) ≤ (q - a) * Real.log q :=
        mul_le_mul_of_nonneg_left (Real.log_le_log (by linarith) (by linarith)) (by linarith)
      unfold Real.negMulLog; nlinarith
    · rw [hq]; simp
  · rw [← ha]; simp

/-- the tangent -/
theorem nml_tangent {a q : ℝ} (ha : 0 ≤ a) (hq : a < q) : Real.negMulLog a ≤ Real.negMulLog q + (1 + Real.log q) * (q - a) := by
  rcases ha.lt_or_eq with ha | ha
  · have h := Real.log_le_sub_one_of_pos (x := q / a) (div_pos (by linarith) ha)
    rw [Real.log_div (by linarith) ha.ne'] at h
    have h' := mul_le_mul_of_nonneg_left h ha.le
    rw [mul_sub a (q / a) 1, mul_div_cancel₀ _ ha.ne'] at h'
    unfold Real.negMulLog; nlinarith
  · rw [← ha]; unfold Real.negMulLog; simp; nlinarith

/-- monotone for small arguments -/
theorem nml_mono {a d : ℝ} (ha : 0 ≤ a) (h : a ≤ d) (hd : d ≤ 1 / 4) : Real.negMulLog a ≤ Real.negMulLog d := by
  rcases h.lt_or_eq with h | rfl
  · have h1 := nml_tangent ha h
    have hd0 : 0 < d := by linarith
    have h2 : Real.log d ≤ Real.log (1 / 4) := Real.log_le_log hd0 hd
    have h3 : Real.log (1 / 4 : ℝ) = -(2 * Real.log 2) := by
      rw [show (1 / 4 : ℝ) = (2 ^ 2)⁻¹ by norm_num, Real.log_inv, Real.log_pow]; norm_num
    have h4 := Real.log_two_gt_d9
    nlinarith
  · exact le_rfl

theorem log_twenty {q : ℝ} (h0 : 0 < q) (h : q ≤ 20) : Real.log q ≤ 3 := by
  rw [Real.log_le_iff_le_exp h0]
  have h1 := Real.exp_one_gt_d9
  have : Real.exp 3 = Real.exp 1 ^ 3 := by rw [← Real.exp_nat_mul]; norm_num
  rw [this]
  have : (20 : ℝ) ≤ 2.7182818283 ^ 3 := by norm_num
  exact h.trans (this.trans (pow_le_pow_left₀ (by norm_num) h1.le 3))

theorem nml_nonneg_small {d : ℝ} (h0 : 0 ≤ d) (h : d ≤ 1) : 0 ≤ Real.negMulLog d := Real.negMulLog_nonneg h0 h

/-- an absolute error of the argument -/
theorem nml_shift {a q d : ℝ} (ha : 0 ≤ a) (hq : 0 ≤ q) (ha' : a ≤ 20) (hq' : q ≤ 20) (h : |q - a| ≤ d) (hd : d ≤ 1 / 4) :
    |Real.negMulLog q - Real.negMulLog a| ≤ Real.negMulLog d + 4 * d := by
  have hd0 : 0 ≤ d := (abs_nonneg _).trans h
  have hN := nml_nonneg_small hd0 (by linarith)
  rw [abs_le] at h
  have half : ∀ {a q : ℝ}, 0 ≤ a → a ≤ q → q ≤ 20 → q - a ≤ d →
      Real.negMulLog q - Real.negMulLog a ≤ Real.negMulLog d + 4 * d ∧ Real.negMulLog a - Real.negMulLog q ≤ Real.negMulLog d + 4 * d := by
    intro a q ha haq hq hd1
    have h1 := nml_sub ha haq
    have h2 := nml_mono (a := q - a) (d := d) (by linarith) hd1 hd
    refine ⟨by linarith, ?_⟩
    rcases haq.lt_or_eq with hlt | heq
    · have h3 := nml_tangent ha hlt
      have h4 := log_twenty (q := q) (by linarith) hq
      nlinarith
    · rw [heq]; linarith
  rw [abs_le]
  rcases le_total a q with hle | hle
  · obtain ⟨h1, h2⟩ := half ha hle hq' (by linarith)
    constructor <;> linarith
  · obtain ⟨h1, h2⟩ := half hq hle ha' (by linarith)
    constructor <;> linarith

/-- a relative error of the argument -/
theorem nml_scale {p δ : ℝ} (hp : 0 ≤ p) (hδ : |δ| ≤ 1 / 2) :
    |Real.negMulLog (p * (1 + δ)) - Real.negMulLog p| ≤ |δ| * (|Real.negMulLog p| + 3 * p) := by
  rcases hp.lt_or_eq with hp | hp
  · have hδ' := abs_le.1 hδ
    have h1 : 0 < 1 + δ := by linarith
    have e : Real.negMulLog (p * (1 + δ)) - Real.negMulLog p = δ * Real.negMulLog p - p * ((1 + δ) * Real.log (1 + δ)) := by
      unfold Real.negMulLog; rw [Real.log_mul hp.ne' h1.ne']; ring
    have h2 : |(1 + δ) * Real.log (1 + δ)| ≤ 3 * |δ| := by
      have a1 := Real.log_le_sub_one_of_pos h1
      have a2 := Real.one_sub_inv_le_log_of_pos h1
      have a3 : (1 + δ) * (1 - (1 + δ)⁻¹) = δ := by field_simp; ring
      have a4 := mul_le_mul_of_nonneg_left a2 h1.le
      have a5 := mul_le_mul_of_nonneg_left a1 h1.le
      rw [a3] at a4
      rw [abs_le]
      have b1 := neg_abs_le δ
      have b2 := le_abs_self δ
      constructor
      · linarith [abs_nonneg δ]
      · have : (1 + δ) * (1 + δ - 1) ≤ 3 * |δ| := by
          have : (1 + δ) * (1 + δ - 1) = δ + δ * δ := by ring
          rw [this, ← abs_mul_abs_self δ]; nlinarith [abs_nonneg δ]
        linarith
    rw [e]
    refine (abs_sub _ _).trans ?_
    rw [abs_mul, abs_mul p, abs_of_pos hp]
    nlinarith
  · rw [← hp]; simp

/-! ## in bits -/

theorem plogp_shift {a q d : ℝ} (ha : 0 ≤ a) (ha' : a ≤ 20) (hq' : q ≤ 20) (h : |q - a| ≤ d) (hd : d ≤ 1 / 4) :
    |plogp q - plogp a| ≤ plogp d + 6 * d := by
  have hl := Real.log_two_gt_d9
  have hd0 : 0 ≤ d := (abs_nonneg _).trans h
  have key : ∀ {q : ℝ}, 0 ≤ q → q ≤ 20 → |q - a| ≤ d → |plogp q - plogp a| ≤ plogp d + 6 * d := by
    intro q hq hq' h
    have := nml_shift ha hq ha' hq' h hd
    rw [plogp_eq hq, plogp_eq ha, plogp_eq hd0, ← sub_div, abs_div, abs_of_pos (show 0 < Real.log 2 by linarith),
      div_le_iff₀ (by linarith), add_mul, div_mul_cancel₀ _ (by linarith : Real.log 2 ≠ 0)]
    nlinarith
  rcases le_total 0 q with hq | hq
  · exact key hq hq' h
  · have e : plogp q = plogp 0 := by rw [plogp_neg hq, plogp_neg le_rfl]
    rw [e]
    refine key le_rfl (by norm_num) ?_
    rw [abs_le] at h ⊢
    constructor <;> linarith

theorem plogp_scale {p δ : ℝ} (hp : 0 ≤ p) (hδ : |δ| ≤ 1 / 2) :
    |plogp (p * (1 + δ)) - plogp p| ≤ |δ| * (|plogp p| + 13 / 3 * p) := by
  have hl := Real.log_two_gt_d9
  have h1 : 0 ≤ 1 + δ := by have := abs_le.1 hδ; linarith
  have := nml_scale hp hδ
  rw [plogp_eq (mul_nonneg hp h1), plogp_eq hp, ← sub_div, abs_div, abs_div, abs_of_pos (show 0 < Real.log 2 by linarith),
    div_le_iff₀ (by linarith), mul_assoc, add_mul, div_mul_cancel₀ _ (by linarith : Real.log 2 ≠ 0)]
  refine this.trans (mul_le_mul_of_nonneg_left ?_ (abs_nonneg _))
  nlinarith

/-- an error that is partly relative and partly absolute -/
theorem split_error {p q α D : ℝ} (hp : 0 ≤ p) (hα : 0 ≤ α) (hD : 0 ≤ D) (h : |q - p| ≤ α * p + D) :
    ∃ δ, |δ| ≤ α ∧ |q - p * (1 + δ)| ≤ D := by
  rw [abs_le] at h
  by_cases h1 : q - p > α * p
  · exact ⟨α, by rw [abs_of_nonneg hα], by rw [abs_le]; constructor <;> nlinarith⟩
  by_cases h2 : q - p < -(α * p)
  · exact ⟨-α, by rw [abs_neg, abs_of_nonneg hα], by rw [abs_le]; constructor <;> nlinarith⟩
  rcases hp.lt_or_eq with hp | hp
  · refine ⟨(q - p) / p, ?_, ?_⟩
    · rw [abs_div, abs_of_pos hp, div_le_iff₀ hp, abs_le]; constructor <;> linarith
    · have : q - p * (1 + (q - p) / p) = 0 := by field_simp; ring
      rw [this, abs_zero]; exact hD
  · refine ⟨0, by simpa using hα, ?_⟩
    rw [← hp] at h1 h2 ⊢
    simp at h1 h2 ⊢
    have : q = 0 := le_antisymm h1 h2
    rw [this, abs_zero]; exact hD

theorem plogp_nonneg {d : ℝ} (h : d ≤ 1) : 0 ≤ plogp d := by
  rcases le_total d 0 with h0 | h0
  · rw [plogp_neg h0]
  · rw [plogp_eq h0]
    exact div_nonneg (Real.negMulLog_nonneg h0 h) (Real.log_nonneg (by norm_num))

/-- a probability `p` with relative error `3 u` and absolute error `d` -/
theorem plogp_error {p q u d : ℝ} (hp : 0 ≤ p) (hp' : p ≤ 16) (hu0 : 0 ≤ u) (hu : u ≤ 1 / 64) (hq : q ≤ 20)
    (h : |q - p| ≤ 3 * u * p + d) (hd0 : 0 ≤ d) (hd : d ≤ 1 / 4) :
    |plogp q - plogp p| ≤ 3 * u * |plogp p| + 13 * u * p + (plogp d + 6 * d) := by
  obtain ⟨δ, h1, h2⟩ := split_error hp (by positivity) hd0 h
  have h1' := abs_le.1 h1
  have b1 := plogp_shift (a := p * (1 + δ)) (mul_nonneg hp (by linarith)) (by nlinarith) hq h2 hd
  have b2 := plogp_scale (p := p) (δ := δ) hp (by linarith)
  have b3 : |δ| * (|plogp p| + 13 / 3 * p) ≤ 3 * u * (|plogp p| + 13 / 3 * p) := mul_le_mul_of_nonneg_right h1 (by positivity)
  have := abs_sub_le (plogp q) (plogp (p * (1 + δ))) (plogp p)
  linarith

end Verif.Proofs
