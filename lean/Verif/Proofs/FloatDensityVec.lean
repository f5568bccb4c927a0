import Verif.Model.FloatDensityVec
import Verif.Spec.FloatVec
import Verif.Proofs.FloatFrob
import Verif.Proofs.FloatCoef
import Verif.Proofs.FloatExpect
import Verif.Proofs.DensityState
import Verif.Proofs.FloatDensityRead

/-! # Making and combining density matrices in floating-point arithmetic -/

namespace Verif.Proofs
open Verif Verif.Spec Verif.Model
open scoped ComplexConjugate
attribute [-simp] BitVec.getLsbD_eq_getElem

theorem frob_mono {n : Nat} (hn : n ≤ 63) {M N : U64 × U64 → ℂ} (h : ∀ p, InMat (2 ^ n) p → ‖M p‖ ≤ ‖N p‖) :
    frob (2 ^ n) M ≤ frob (2 ^ n) N := by
  have k : ∀ j ∈ Finset.range (2 ^ n), (BitVec.ofNat 64 j).toNat < 2 ^ n := by
    intro j hj
    rw [Finset.mem_range] at hj
    rw [Verif.toNat_ofNat_lt (show j < 2 ^ 64 from lt_of_lt_of_le hj (pow64 hn))]
    exact hj
  unfold frob
  refine Real.sqrt_le_sqrt (Finset.sum_le_sum fun r hr => Finset.sum_le_sum fun c hc => ?_)
  exact pow_le_pow_left₀ (norm_nonneg _) (h (BitVec.ofNat 64 r, BitVec.ofNat 64 c) ⟨k r hr, k c hc⟩) 2

theorem frob_smul (dim : Nat) {C : ℝ} (hC : 0 ≤ C) (M : U64 × U64 → ℂ) : frob dim (fun p => (C : ℂ) * M p) = C * frob dim M := by
  unfold frob
  simp only [norm_mul, Complex.norm_real, Real.norm_of_nonneg hC, mul_pow, ← Finset.mul_sum]
  rw [Real.sqrt_mul (by positivity), Real.sqrt_sq hC]

theorem frob_const (dim : Nat) {D : ℝ} (hD : 0 ≤ D) : frob dim (fun _ => (D : ℂ)) = D * dim := by
  unfold frob
  simp only [Complex.norm_real, Real.norm_of_nonneg hD, Finset.sum_const, Finset.card_range, nsmul_eq_mul]
  rw [show (dim : ℝ) * (dim * D ^ 2) = (D * dim) ^ 2 by ring, Real.sqrt_sq (by positivity)]

theorem frob_abs (dim : Nat) (M : U64 × U64 → ℂ) : frob dim (fun p => ((‖M p‖ : ℝ) : ℂ)) = frob dim M := by
  unfold frob
  simp only [Complex.norm_real, norm_norm]

/-- a bound per element gives one in the Frobenius norm -/
theorem frob_bound {n : Nat} (hn : n ≤ 63) {d M N : U64 × U64 → ℂ} {C D : ℝ} (hC : 0 ≤ C) (hD : 0 ≤ D)
    (h : ∀ p, InMat (2 ^ n) p → ‖d p‖ ≤ C * (‖M p‖ + ‖N p‖) + D) :
    frob (2 ^ n) d ≤ C * (frob (2 ^ n) M + frob (2 ^ n) N) + D * 2 ^ n := by
  have h1 := frob_mono hn (M := d) (N := fun p => (C : ℂ) * (((‖M p‖ : ℝ) : ℂ) + ((‖N p‖ : ℝ) : ℂ)) + (D : ℂ)) (fun p hp => by
    refine (h p hp).trans (le_of_eq ?_)
    rw [← Complex.ofReal_add, ← Complex.ofReal_mul, ← Complex.ofReal_add, Complex.norm_real, Real.norm_of_nonneg (by positivity)])
  have h2 := frob_add n (fun p => (C : ℂ) * (((‖M p‖ : ℝ) : ℂ) + ((‖N p‖ : ℝ) : ℂ))) fun _ => (D : ℂ)
  have h3 := frob_add n (fun p => ((‖M p‖ : ℝ) : ℂ)) fun p => ((‖N p‖ : ℝ) : ℂ)
  rw [frob_abs, frob_abs] at h3
  rw [frob_smul _ hC, frob_const _ hD] at h2
  push_cast at h2
  have := mul_le_mul_of_nonneg_left h3 hC
  linarith

theorem cells_step {R : Type} {n : Nat} (hn : n < 32) (f : U64 × U64 → R → R) (M : U64 × U64 → R) :
    MRuns (2 ^ n) [elementwiseMF (2 ^ n) f] M (fun p => if p.1.toNat < 2 ^ n ∧ p.2.toNat < 2 ^ n then f p (M p) else M p) := by
  refine ⟨_, cells_run (Nat.pow_lt_pow_right (by norm_num) hn) _ M _ ?_ ?_ ?_, rfl⟩
  · intro i j; exact ⟨rfl, fun _ => ⟨rfl, trivial⟩⟩
  · intro i j h
    show (if _ then _ else _) = Function.update M (i, j) (f (i, j) (M (i, j))) (i, j)
    rw [if_pos ⟨h.1, h.2⟩, Function.update_self]
  · intro p hp
    exact if_neg hp

theorem cells_fill {R : Type} {n : Nat} (hn : n < 32) (f : U64 × U64 → R) (M : U64 × U64 → R) :
    MRuns (2 ^ n) [pairFor (2 ^ n) (2 ^ n) fun i j => Prog.store (i, j) (f (i, j))] M
      (fun p => if p.1.toNat < 2 ^ n ∧ p.2.toNat < 2 ^ n then f p else M p) := by
  refine ⟨_, cells_run (Nat.pow_lt_pow_right (by norm_num) hn) _ M _ ?_ ?_ ?_, rfl⟩
  · intro i j; exact ⟨rfl, trivial⟩
  · intro i j h
    show (if _ then _ else _) = Function.update M (i, j) (f (i, j)) (i, j)
    rw [if_pos ⟨h.1, h.2⟩, Function.update_self]
  · intro p hp
    exact if_neg hp

/-- the quotient of two approximate numbers, the denominator the square of a number of at least 1/4 -/
theorem quotient_near {P P' r s N' α β : ℝ} (hr : 1 / 4 ≤ r) (hs : 0 ≤ s) (hα : 0 ≤ α) (hβ : 0 ≤ β) (hsm : α + 16 * β ≤ 1 / 10)
    (hP : |P| ≤ s * r) (hP' : |P' - P| ≤ α * (s * r) + β) (hN : |N' - r ^ 2| ≤ α * r ^ 2 + β) :
    0 < N' ∧ |P / r ^ 2| ≤ 4 * s ∧ |P' / N' - P / r ^ 2| ≤ 10 * α * s + 72 * β * s + 18 * β := by
  have hr0 : 0 < r := by linarith
  have hN0 : 1 / 16 ≤ r ^ 2 := by nlinarith
  have hN1 : 9 / 10 * r ^ 2 ≤ N' := by
    rw [abs_le] at hN
    have : β ≤ 16 * β * r ^ 2 := by nlinarith
    nlinarith
  have hN' : 0 < N' := by nlinarith
  have hG : s * r / r ^ 2 ≤ 4 * s := by
    rw [div_le_iff₀ (by positivity)]
    nlinarith [mul_nonneg hs hr0.le]
  have hPN : |P / r ^ 2| ≤ s * r / r ^ 2 := by
    rw [abs_div, abs_of_pos (show 0 < r ^ 2 by positivity)]
    exact div_le_div_of_nonneg_right hP (by positivity)
  refine ⟨hN', hPN.trans hG, ?_⟩
  have e : P' / N' - P / r ^ 2 = ((P' - P) + P / r ^ 2 * (r ^ 2 - N')) / N' := by
    field_simp
    ring
  rw [e, abs_div, abs_of_pos hN', div_le_iff₀ hN']
  refine (abs_add_le _ _).trans ?_
  rw [abs_mul, abs_sub_comm (r ^ 2)]
  have h1 := mul_le_mul (hPN.trans hG) hN (abs_nonneg _) (by positivity)
  have h2 : (10 * α * s + 72 * β * s + 18 * β) * (9 / 10 * r ^ 2) ≤ (10 * α * s + 72 * β * s + 18 * β) * N' :=
    mul_le_mul_of_nonneg_left hN1 (by positivity)
  have h3 : s * r ≤ 4 * s * r ^ 2 := by nlinarith [mul_nonneg hs hr0.le]
  have h4 := mul_le_mul_of_nonneg_left h3 hα
  have h5 : β ≤ 16 * β * r ^ 2 := by nlinarith
  have h6 : β * s ≤ 16 * (β * s) * r ^ 2 := by nlinarith [mul_nonneg hβ hs]
  have h7 : 0 ≤ α * s * r ^ 2 := by positivity
  have h8 : 0 ≤ β * s * r ^ 2 := by positivity
  have h9 : 0 ≤ β * r ^ 2 := by positivity
  nlinarith

/-- the error of one rounded quotient -/
theorem part_bound {Q Q' q s α β u η : ℝ} (hu0 : 0 ≤ u) (hη0 : 0 ≤ η) (hu : u ≤ 1 / 1024) (hη : η ≤ 1 / 1024) (hs : 0 ≤ s) (hs4 : s ≤ 4)
    (hα : α ≤ 3 * u) (hβ : β ≤ 3 * η) (h1 : |Q| ≤ 4 * s) (h2 : |Q' - Q| ≤ 10 * α * s + 72 * β * s + 18 * β)
    (h3 : |Q'| ≤ 64 → |q - Q'| ≤ u * |Q'| + η) : |q - Q| ≤ 216 * (u + η) * s + 56 * η := by
  have a1 := mul_le_mul_of_nonneg_right hα hs
  have a2 := mul_le_mul_of_nonneg_right hβ hs
  have a3 := abs_add_le (Q' - Q) Q
  rw [sub_add_cancel] at a3
  have b1 := mul_nonneg hu0 hs
  have b2 := mul_nonneg hη0 hs
  have b3 := mul_le_mul_of_nonneg_right hu hs
  have b4 := mul_le_mul_of_nonneg_right hη hs
  have h4 : |Q' - Q| ≤ 30 * (u * s) + 216 * (η * s) + 54 * η := by linarith
  have h5 : |Q'| ≤ 5 * s + 54 * η := by linarith
  have h6 := h3 (by linarith)
  have h7 := mul_le_mul_of_nonneg_left h5 hu0
  have h8 := mul_le_mul_of_nonneg_right hu hη0
  have h9 := abs_sub_le q Q' Q
  have e : u * (5 * s + 54 * η) = 5 * (u * s) + 54 * (u * η) := by ring
  have e2 : 216 * (u + η) * s = 216 * (u * s) + 216 * (η * s) := by ring
  rw [e] at h7
  rw [e2]
  linarith

section
variable {F : Type} [_root_.Zero F] [One F] [Add F] [Sub F] [Mul F] [Neg F] {lib : FloatLib F} {E : DivLib F} {val : F → ℝ} {u w η Ω : ℝ}

local notation "⟪" x "⟫" => cval val x

/-- division of complex numbers -/
theorem quotC_err (A : Accurate lib val u w η Ω) (hD : DivAccurate E val u η Ω) (hu : u ≤ 1 / 1024) (hη : η ≤ 1 / 1024) {z t : Cx F}
    (hz : ‖⟪z⟫‖ ≤ 4) (ht : 1 / 4 ≤ ‖⟪t⟫‖) (ht4 : ‖⟪t⟫‖ ≤ 4) :
    ‖⟪quotC E z t⟫ - ⟪z⟫ / ⟪t⟫‖ ≤ 432 * (u + η) * ‖⟪z⟫‖ + 112 * η := by
  have hu0 := A.u_nonneg
  have hη0 := A.eta_nonneg
  have hΩ := A.big
  obtain ⟨z1, z2⟩ := part_range hz
  obtain ⟨t1, t2⟩ := part_range ht4
  have hu' : u ≤ 1 / 64 := by linarith
  have hη' : η ≤ 1 / 64 := by linarith
  have hα : (1 + u) ^ 2 - 1 ≤ 3 * u := by nlinarith
  have hα0 : 0 ≤ (1 + u) ^ 2 - 1 := by nlinarith
  have hβ : (1 + u) * (η + η) ≤ 3 * η := by nlinarith
  have hβ0 : 0 ≤ (1 + u) * (η + η) := by positivity
  have hs := norm_nonneg ⟪z⟫
  have hden := squaredC_appr A hu' hη' ht4
  have hN : |val (t.re * t.re + t.im * t.im) - ‖⟪t⟫‖ ^ 2| ≤ ((1 + u) ^ 2 - 1) * ‖⟪t⟫‖ ^ 2 + (1 + u) * (η + η) := by
    have := hden.1
    rw [Complex.normSq_eq_norm_sq, two_mul] at this
    exact this
  obtain ⟨cs1, cs2⟩ := parts_cs ⟪z⟫ ⟪t⟫
  obtain ⟨p1, p2⟩ := appr_prod A hu' hη' z1 t1
  obtain ⟨q1, q2⟩ := appr_prod A hu' hη' z2 t2
  obtain ⟨r1, r2⟩ := appr_prod A hu' hη' z2 t1
  obtain ⟨s1, s2⟩ := appr_prod A hu' hη' z1 t2
  have hre := (Appr.add A p1 q1 (by linarith) (by linarith)).mono hu0 le_rfl cs1 le_rfl
  have him := (Appr.sub A r1 s1 (by linarith) (by linarith)).mono hu0 le_rfl
    (show |val z.im| * |val t.re| + |val z.re| * |val t.im| ≤ ‖⟪z⟫‖ * ‖⟪t⟫‖ from (add_comm _ _).trans_le cs2) le_rfl
  have part : ∀ {x : F} {X : ℝ}, Appr val u (1 + 1) x X (‖⟪z⟫‖ * ‖⟪t⟫‖) ((1 + u) * (η + η)) →
      |val (E.div x (t.re * t.re + t.im * t.im)) - X / ‖⟪t⟫‖ ^ 2| ≤ 216 * (u + η) * ‖⟪z⟫‖ + 56 * η := by
    intro x X hx
    have hx64 : |val x| ≤ 64 := by
      have h1 := hx.abs_le
      have h2 : ‖⟪z⟫‖ * ‖⟪t⟫‖ ≤ 4 * 4 := mul_le_mul hz ht4 (norm_nonneg _) (by norm_num)
      have h3 : (1 + u) ^ (1 + 1) * (‖⟪z⟫‖ * ‖⟪t⟫‖) ≤ 2 * (4 * 4) :=
        mul_le_mul (show (1 + u) ^ 2 ≤ 2 by linarith) h2 (by positivity) (by norm_num)
      linarith
    obtain ⟨k1, k2, k3⟩ := quotient_near ht hs hα0 hβ0 (by linarith) hx.2.1 hx.1 hN
    exact part_bound hu0 hη0 hu hη hs hz hα hβ k2 k3 fun h => hD.div x _ hx64 k1.ne' h
  have hne : ⟪t⟫ ≠ 0 := by
    intro h0
    rw [h0, norm_zero] at ht
    linarith
  have e1 : (⟪z⟫ / ⟪t⟫).re = (val z.re * val t.re + val z.im * val t.im) / ‖⟪t⟫‖ ^ 2 := by
    rw [Complex.div_re, ← Complex.normSq_eq_norm_sq]
    show val z.re * val t.re / _ + val z.im * val t.im / _ = _
    rw [← add_div]
  have e2 : (⟪z⟫ / ⟪t⟫).im = (val z.im * val t.re - val z.re * val t.im) / ‖⟪t⟫‖ ^ 2 := by
    rw [Complex.div_im, ← Complex.normSq_eq_norm_sq]
    show val z.im * val t.re / _ - val z.re * val t.im / _ = _
    rw [← sub_div]
  have p3 := part hre
  have p4 := part him
  rw [← e1] at p3
  rw [← e2] at p4
  have := norm_le_parts (x := ⟪quotC E z t⟫) (y := ⟪z⟫ / ⟪t⟫) p3 p4
  linarith

/-- division by an approximate trace -/
theorem normalize_cell (A : Accurate lib val u w η Ω) (hD : DivAccurate E val u η Ω) (hu : u ≤ 1 / 1024) (hη : η ≤ 1 / 1024) {z t : Cx F} {T : ℂ}
    {τ : ℝ} (hz : ‖⟪z⟫‖ ≤ 4) (hT : 1 / 2 ≤ ‖T‖) (hT2 : ‖T‖ ≤ 2) (hτ : ‖⟪t⟫ - T‖ ≤ τ) (hτ4 : τ ≤ 1 / 4) :
    ‖⟪quotC E z t⟫ - ⟪z⟫ / T‖ ≤ (432 * (u + η) + 8 * τ) * ‖⟪z⟫‖ + 112 * η := by
  have h1 : ‖⟪t⟫‖ ≤ ‖T‖ + τ := by
    have := norm_add_le (⟪t⟫ - T) T; rw [sub_add_cancel] at this; linarith
  have h2 : ‖T‖ ≤ ‖⟪t⟫‖ + τ := by
    have := norm_add_le (T - ⟪t⟫) ⟪t⟫; rw [sub_add_cancel, norm_sub_rev] at this; linarith
  have hτ0 := (norm_nonneg _).trans hτ
  have h3 := quotC_err A hD hu hη hz (show 1 / 4 ≤ ‖⟪t⟫‖ by linarith) (by linarith)
  have hne : ⟪t⟫ ≠ 0 := by
    intro h0
    rw [h0, norm_zero] at h2
    linarith
  have hTne : T ≠ 0 := by
    intro h0
    rw [h0, norm_zero] at hT
    linarith
  have e : ⟪z⟫ / ⟪t⟫ - ⟪z⟫ / T = ⟪z⟫ * (T - ⟪t⟫) / (⟪t⟫ * T) := by
    field_simp
  have h4 : ‖⟪z⟫ / ⟪t⟫ - ⟪z⟫ / T‖ ≤ 8 * τ * ‖⟪z⟫‖ := by
    rw [e, norm_div, norm_mul, norm_mul, norm_sub_rev, div_le_iff₀ (by positivity)]
    have h5 : 1 / 8 ≤ ‖⟪t⟫‖ * ‖T‖ := by nlinarith
    have h6 := mul_le_mul_of_nonneg_left hτ (norm_nonneg ⟪z⟫)
    have h7 : 0 ≤ τ * ‖⟪z⟫‖ := by positivity
    nlinarith
  have h8 := norm_sub_le_norm_sub_add_norm_sub ⟪quotC E z t⟫ (⟪z⟫ / ⟪t⟫) (⟪z⟫ / T)
  linarith

end

end Verif.Proofs
