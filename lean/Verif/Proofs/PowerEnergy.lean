import Verif.Proofs.PowerMethod
import Verif.Props.Operator
import Verif.Model.GroundState

/-! # The outcome of the power method and its energy -/

namespace Verif.Proofs
open Verif Verif.Spec Verif.Model Verif.Props
attribute [-simp] BitVec.getLsbD_eq_getElem

variable {o : Op} {n : Nat}

theorem sumOperator_fun (ts : List PauliOp) : sumOperator ts = OpAct ts := funext fun ψ => sumOperator_eq ts ψ

theorem powerMethod_iff (hl : o.terms ≠ []) (hh : o.hermitian = true) (ψ : U64 → ℂ) (k : Nat) (mu : Option ℂ) (r : Res GroundState) :
    o.PowerMethod n ψ k mu r ↔ ∃ s, o.PowerLoop n (o.muOr mu) k ψ s ∧
      r = (do let φ ← s; let e ← o.expectation (2 ^ n) φ; pure ⟨e, φ⟩) := by
  unfold Op.PowerMethod
  rw [if_neg (by rwa [List.length_eq_zero_iff]), if_neg (by rw [hh]; decide)]

/-- the outcome in terms of vectors -/
theorem power_outcome (h1 : 1 ≤ n) (hn : n ≤ 63) (ho : OpFits o n) (hl : o.terms ≠ []) (hh : o.hermitian = true)
    (ψ : U64 → ℂ) (k : Nat) (mu : Option ℂ) :
    ((k = 0 ∨ (shiftLin n o.terms (o.muOr mu) ^ k) (vec n ψ) ≠ 0) → ∃ g : GroundState,
      (∀ r, o.PowerMethod n ψ k mu r ↔ r = .ok g) ∧ g.eigenvalue = inner (2 ^ n) g.state (sumOperator o.terms g.state) ∧
      (k = 0 → g.state = ψ) ∧
      (0 < k → vec n g.state = ((‖(shiftLin n o.terms (o.muOr mu) ^ k) (vec n ψ)‖⁻¹ : ℝ) : ℂ) •
        (shiftLin n o.terms (o.muOr mu) ^ k) (vec n ψ))) ∧
    (0 < k → (shiftLin n o.terms (o.muOr mu) ^ k) (vec n ψ) = 0 →
      ∀ r, o.PowerMethod n ψ k mu r ↔ r = .error (.ub "division by zero")) := by
  have hx := opFits_x ho
  obtain ⟨l1, l2⟩ := powerLoop_spec hn hx (o.muOr mu) k ψ
  refine ⟨fun h => ?_, fun hk hz r => ?_⟩
  · obtain ⟨φ, e, e0, ek⟩ := l1 h
    refine ⟨⟨inner (2 ^ n) φ (sumOperator o.terms φ), φ⟩, fun r => ?_, rfl, e0, ek⟩
    rw [powerMethod_iff hl hh]
    have hexp := (C26_values_partial o h1 (show n ≤ 64 by omega) ho).1 φ
    constructor
    · rintro ⟨s, hs, rfl⟩
      obtain rfl := (e s).1 hs
      rw [ok_bind, hexp, ok_bind]; rfl
    · rintro rfl
      exact ⟨_, (e _).2 rfl, by rw [ok_bind, hexp, ok_bind]; rfl⟩
  · rw [powerMethod_iff hl hh]
    constructor
    · rintro ⟨s, hs, rfl⟩
      obtain rfl := (l2 hk hz s).1 hs
      rfl
    · rintro rfl
      exact ⟨_, (l2 hk hz _).2 rfl, rfl⟩

theorem energyAtMost_psd (hn : n ≤ 63) (ho : OpFits o n) {μ : ℝ} (h : EnergyAtMost n (sumOperator o.terms) μ) (x : Vect n) :
    0 ≤ (Inner.inner ℂ x (gapLin n o.terms μ x)).re := by
  rw [gap_energy]
  have := h (unvec x)
  rw [inner_vec hn, sumOperator_eq, vec_opAct hn (opFits_x ho), vec_unvec hn, normSq_vec hn, vec_unvec hn] at this
  linarith

theorem energyAtMost_default (hn : n ≤ 63) (ho : OpFits o n) (hc : ∀ p ∈ o.terms, p.coef.im = 0) :
    EnergyAtMost n (sumOperator o.terms) (o.terms.map fun p => |p.coef.re|).sum ∧
    EnergyAtLeast n (sumOperator o.terms) (-(o.terms.map fun p => |p.coef.re|).sum) := by
  have key : ∀ φ, |(inner (2 ^ n) φ (sumOperator o.terms φ)).re| ≤ (o.terms.map fun p => |p.coef.re|).sum * normSq (2 ^ n) φ := by
    intro φ
    rw [inner_vec hn, sumOperator_eq, vec_opAct hn (opFits_x ho), normSq_vec hn]
    refine (Complex.abs_re_le_norm _).trans ((norm_inner_le_norm _ _).trans ?_)
    have := mul_le_mul_of_nonneg_left (opLin_bound hn (opFits_x ho) hc (vec n φ)) (norm_nonneg (vec n φ))
    nlinarith
  exact ⟨fun φ => (le_abs_self _).trans (key φ), fun φ => by have := neg_abs_le (inner (2 ^ n) φ (sumOperator o.terms φ)).re; linarith [key φ]⟩

/-- energies are real -/
theorem energy_real (hn : n ≤ 63) (ho : OpFits o n) (hc : ∀ p ∈ o.terms, p.coef.im = 0) (φ : U64 → ℂ) :
    (inner (2 ^ n) φ (sumOperator o.terms φ)).im = 0 := by
  have h := real_hermitian hc (show n ≤ 64 by omega) ho φ φ
  exact Complex.conj_eq_iff_im.1 h.symm

/-- the energy after `k` iterations as a quotient -/
theorem power_quotient (hn : n ≤ 63) (ho : OpFits o n) {μ : ℝ} {k : Nat} {ψ φ : U64 → ℂ}
    (h0 : (shiftLin n o.terms μ ^ k) (vec n ψ) ≠ 0)
    (h : vec n φ = ((‖(shiftLin n o.terms μ ^ k) (vec n ψ)‖⁻¹ : ℝ) : ℂ) • (shiftLin n o.terms μ ^ k) (vec n ψ)) :
    normSq (2 ^ n) φ = 1 ∧ (gapLin n o.terms μ ^ k) (vec n ψ) ≠ 0 ∧
    μ - (inner (2 ^ n) φ (sumOperator o.terms φ)).re =
      (Inner.inner ℂ ((gapLin n o.terms μ ^ k) (vec n ψ)) (gapLin n o.terms μ ((gapLin n o.terms μ ^ k) (vec n ψ)))).re /
        ‖(gapLin n o.terms μ ^ k) (vec n ψ)‖ ^ 2 := by
  set y := (gapLin n o.terms (μ : ℂ) ^ k) (vec n ψ) with hy
  have hs : (shiftLin n o.terms (μ : ℂ) ^ k) (vec n ψ) = ((-1 : ℂ) ^ k) • y := gapLin_pow _ _ _ _
  have hny : ‖((-1 : ℂ) ^ k) • y‖ = ‖y‖ := by rw [norm_smul, norm_pow, norm_neg, norm_one, one_pow, one_mul]
  rw [hs] at h h0
  have hy0 : y ≠ 0 := fun e => h0 (by rw [e, smul_zero])
  have hyn : ‖y‖ ≠ 0 := norm_ne_zero_iff.2 hy0
  rw [hny, smul_smul] at h
  set c : ℂ := ((‖y‖⁻¹ : ℝ) : ℂ) * (-1) ^ k with hcdef
  have hcn : ‖c‖ = ‖y‖⁻¹ := by
    rw [hcdef, norm_mul, norm_pow, norm_neg, norm_one, one_pow, mul_one, Complex.norm_real, norm_inv, norm_norm]
  have hN : normSq (2 ^ n) φ = 1 := by
    rw [normSq_vec hn, h, norm_smul, hcn, inv_mul_cancel₀ hyn, one_pow]
  refine ⟨hN, hy0, ?_⟩
  have hg : (Inner.inner ℂ (vec n φ) (gapLin n o.terms μ (vec n φ))).re = μ - (inner (2 ^ n) φ (sumOperator o.terms φ)).re := by
    rw [gap_energy, ← normSq_vec hn, hN, mul_one, inner_vec hn, sumOperator_eq, vec_opAct hn (opFits_x ho)]
  rw [← hg, h, map_smul, _root_.inner_smul_left, _root_.inner_smul_right, ← mul_assoc, mul_comm ((starRingEnd ℂ) c), Complex.mul_conj,
    Complex.re_ofReal_mul, Complex.normSq_eq_norm_sq, hcn]
  field_simp

end Verif.Proofs
