import Verif.Spec.Haar
import Mathlib.Probability.Distributions.Gaussian.Multivariate
import Mathlib.Probability.Independence.InfinitePi
import Mathlib.Analysis.InnerProductSpace.PiL2

/-! # Gaussian vectors and invariant distributions on the unit sphere -/

namespace Verif.Proofs
open Verif.Spec MeasureTheory ProbabilityTheory

/-! ## the standard normal vector of complex amplitudes -/

/-- the complex vector with the given real and imaginary parts -/
noncomputable def complexOf (N : ℕ) : EuclideanSpace ℝ (Fin N × Bool) ≃ₗᵢ[ℝ] EuclideanSpace ℂ (Fin N) where
  toFun y := WithLp.toLp 2 fun i => ⟨y (i, false), y (i, true)⟩
  invFun x := WithLp.toLp 2 fun p => if p.2 then (x p.1).im else (x p.1).re
  map_add' x y := by ext i; apply Complex.ext <;> simp
  map_smul' c x := by ext i; apply Complex.ext <;> simp
  left_inv y := by
    ext ⟨i, b⟩
    cases b <;> simp
  right_inv x := by ext i; apply Complex.ext <;> simp
  norm_map' y := by
    show ‖(WithLp.toLp 2 fun i => (⟨y (i, false), y (i, true)⟩ : ℂ) : EuclideanSpace ℂ (Fin N))‖ = ‖y‖
    rw [EuclideanSpace.norm_eq, EuclideanSpace.norm_eq, Fintype.sum_prod_type]
    congr 1
    apply Finset.sum_congr rfl
    intro i _
    rw [Fintype.sum_bool, ← Complex.normSq_eq_norm_sq, Complex.normSq_apply]
    simp only [Real.norm_eq_abs, sq_abs]
    ring

theorem gauss_unitary {N : ℕ} (U : EuclideanSpace ℂ (Fin N) ≃ₗᵢ[ℂ] EuclideanSpace ℂ (Fin N)) :
    (stdGaussian (EuclideanSpace ℂ (Fin N))).map U = stdGaussian (EuclideanSpace ℂ (Fin N)) := by
  let f : EuclideanSpace ℂ (Fin N) ≃ₗᵢ[ℝ] EuclideanSpace ℂ (Fin N) :=
    { U.toLinearEquiv.restrictScalars ℝ with norm_map' := U.norm_map }
  exact stdGaussian_map f

/-- the unit vector in the direction of `x` -/
noncomputable def direction {N : ℕ} (x : EuclideanSpace ℂ (Fin N)) : EuclideanSpace ℂ (Fin N) := ((‖x‖ : ℂ)⁻¹) • x

theorem direction_measurable {N : ℕ} : Measurable (direction (N := N)) := by
  unfold direction
  fun_prop

theorem norm_direction {N : ℕ} {x : EuclideanSpace ℂ (Fin N)} (h : x ≠ 0) : ‖direction x‖ = 1 := by
  unfold direction
  rw [norm_smul, norm_inv, Complex.norm_real, norm_norm, inv_mul_cancel₀ (norm_ne_zero_iff.2 h)]

theorem direction_unitary {N : ℕ} (U : EuclideanSpace ℂ (Fin N) ≃ₗᵢ[ℂ] EuclideanSpace ℂ (Fin N)) (x : EuclideanSpace ℂ (Fin N)) :
    direction (U x) = U (direction x) := by
  unfold direction
  rw [U.norm_map, map_smul]

section draws
variable {Ω : Type*} [MeasurableSpace Ω] {μ : Measure Ω} [IsProbabilityMeasure μ]

/-- the vector of amplitudes made of the drawn numbers -/
noncomputable def rawVec (N : ℕ) (g : Nat → Bool → ℝ) : EuclideanSpace ℂ (Fin N) := WithLp.toLp 2 fun i => ⟨g i.val false, g i.val true⟩

theorem rawVec_eq (N : ℕ) (g : Nat → Bool → ℝ) :
    rawVec N g = complexOf N (WithLp.toLp 2 fun p => g p.1.val p.2) := rfl

theorem rawVec_measurable {N : ℕ} {g : ℕ → Bool → Ω → ℝ} (h : ∀ i b, Measurable (g i b)) :
    Measurable fun ω => rawVec N fun i b => g i b ω := by
  have : Measurable fun ω => (WithLp.toLp 2 fun p : Fin N × Bool => g p.1.val p.2 ω : EuclideanSpace ℝ (Fin N × Bool)) := by
    have := fun i b => h i b
    fun_prop
  exact (complexOf N).continuous.measurable.comp this

theorem rawVec_law (N : ℕ) {g : ℕ → Bool → Ω → ℝ} (h : NormalDraws μ fun p : ℕ × Bool => g p.1 p.2) :
    μ.map (fun ω => rawVec N fun i b => g i b ω) = stdGaussian (EuclideanSpace ℂ (Fin N)) := by
  have hm : ∀ i b, Measurable (g i b) := fun i b => h.meas (i, b)
  have hinj : Function.Injective fun p : Fin N × Bool => (p.1.val, p.2) := by
    rintro ⟨a, b⟩ ⟨c, d⟩ e
    simp only [Prod.mk.injEq] at e
    exact Prod.ext (Fin.ext e.1) e.2
  have hi := h.indep.precomp hinj
  have h1 := hi.map_fun_eq_pi_map (fun p : Fin N × Bool => (hm p.1.val p.2).aemeasurable)
  have h2 : (fun p : Fin N × Bool => μ.map (g p.1.val p.2)) = fun _ => gaussianReal 0 1 := by
    funext p
    exact h.law (p.1.val, p.2)
  have e : (fun ω => rawVec N fun i b => g i b ω) = complexOf N ∘ WithLp.toLp 2 ∘ fun ω (p : Fin N × Bool) => g p.1.val p.2 ω := rfl
  have hd : Measurable fun ω (p : Fin N × Bool) => g p.1.val p.2 ω := by fun_prop
  rw [e, ← Measure.map_map (complexOf N).continuous.measurable (by fun_prop), ← Measure.map_map (by fun_prop) hd]
  have h3 : μ.map (fun ω (p : Fin N × Bool) => g p.1.val p.2 ω) = Measure.pi fun _ => gaussianReal 0 1 := by
    rw [← h2]; exact h1
  rw [h3, map_pi_eq_stdGaussian]
  exact stdGaussian_map (complexOf N)

omit [IsProbabilityMeasure μ] in
theorem rawVec_ne {N : ℕ} (hN : 0 < N) {g : ℕ → Bool → Ω → ℝ} (h : NormalDraws μ fun p : ℕ × Bool => g p.1 p.2) :
    ∀ᵐ ω ∂μ, rawVec N (fun i b => g i b ω) ≠ 0 := by
  have h1 : ∀ᵐ ω ∂μ, g 0 false ω ≠ 0 := by
    have h2 : ∀ᵐ x ∂(μ.map (g 0 false)), x ≠ (0 : ℝ) := by
      have := h.law (0, false)
      dsimp only at this
      rw [this]
      have := nullSingletonClass_gaussianReal (μ := 0) (v := 1) (by norm_num)
      rw [ae_iff]
      simp
    exact ae_of_ae_map (h.meas (0, false)).aemeasurable h2
  filter_upwards [h1] with ω hω e
  apply hω
  have := congrArg (fun x : EuclideanSpace ℂ (Fin N) => (x ⟨0, hN⟩).re) e
  simpa [rawVec] using this

/-- the directions of normal vectors are Haar distributed -/
theorem direction_haar (n : ℕ) {g : ℕ → Bool → Ω → ℝ} (h : NormalDraws μ fun p : ℕ × Bool => g p.1 p.2) :
    IsHaar n (μ.map fun ω => direction (rawVec (2 ^ n) fun i b => g i b ω)) := by
  have hr := rawVec_measurable (N := 2 ^ n) (g := g) fun i b => h.meas (i, b)
  have hd : Measurable fun ω => direction (rawVec (2 ^ n) fun i b => g i b ω) := direction_measurable.comp hr
  refine ⟨Measure.isProbabilityMeasure_map hd.aemeasurable, ?_, ?_⟩
  · rw [ae_map_iff hd.aemeasurable (measurableSet_eq_fun measurable_norm measurable_const)]
    filter_upwards [rawVec_ne (N := 2 ^ n) (by positivity) h] with ω hω
    exact norm_direction hω
  · intro U
    have e : (μ.map fun ω => direction (rawVec (2 ^ n) fun i b => g i b ω)) = (stdGaussian (Amplitudes n)).map direction := by
      rw [← rawVec_law (2 ^ n) h, Measure.map_map direction_measurable hr]; rfl
    rw [e, Measure.map_map U.continuous.measurable direction_measurable]
    have e2 : (U ∘ direction : Amplitudes n → Amplitudes n) = direction ∘ U := by
      funext x
      exact (direction_unitary U x).symm
    rw [e2, ← Measure.map_map direction_measurable U.continuous.measurable, gauss_unitary]

end draws

/-! ## uniqueness -/

theorem unitary_of_unit {N : ℕ} (hN : 0 < N) {x y : EuclideanSpace ℂ (Fin N)} (hx : ‖x‖ = 1) (hy : ‖y‖ = 1) :
    ∃ U : EuclideanSpace ℂ (Fin N) ≃ₗᵢ[ℂ] EuclideanSpace ℂ (Fin N), U x = y := by
  have key : ∀ z : EuclideanSpace ℂ (Fin N), ‖z‖ = 1 → ∃ b : OrthonormalBasis (Fin N) ℂ (EuclideanSpace ℂ (Fin N)), b ⟨0, hN⟩ = z := by
    intro z hz
    obtain ⟨b, hb⟩ := Orthonormal.exists_orthonormalBasis_extension_of_card_eq (𝕜 := ℂ) (E := EuclideanSpace ℂ (Fin N)) (ι := Fin N)
      (by simp) (v := fun _ => z) (s := {⟨0, hN⟩}) (by
        constructor
        · intro i; exact hz
        · intro i j hij
          exact absurd (Subsingleton.elim i j) hij)
    exact ⟨b, hb _ rfl⟩
  obtain ⟨b, hb⟩ := key x hx
  obtain ⟨c, hc⟩ := key y hy
  refine ⟨b.equiv c (Equiv.refl _), ?_⟩
  rw [← hb, ← hc, OrthonormalBasis.equiv_apply_basis]
  rfl

theorem real_inner_unitary {N : ℕ} (U : EuclideanSpace ℂ (Fin N) ≃ₗᵢ[ℂ] EuclideanSpace ℂ (Fin N)) (x y : EuclideanSpace ℂ (Fin N)) :
    Inner.inner ℝ (U x) (U y) = Inner.inner ℝ x y := by
  let f : EuclideanSpace ℂ (Fin N) ≃ₗᵢ[ℝ] EuclideanSpace ℂ (Fin N) :=
    { U.toLinearEquiv.restrictScalars ℝ with norm_map' := U.norm_map }
  exact f.inner_map_map x y

theorem charFun_invariant {N : ℕ} {ν : Measure (EuclideanSpace ℂ (Fin N))} (U : EuclideanSpace ℂ (Fin N) ≃ₗᵢ[ℂ] EuclideanSpace ℂ (Fin N))
    (h : ν.map U = ν) (t : EuclideanSpace ℂ (Fin N)) : charFun ν (U t) = charFun ν t := by
  conv_lhs => rw [← h]
  rw [charFun_apply, charFun_apply, integral_map U.continuous.aemeasurable (by fun_prop)]
  simp only [real_inner_unitary]

theorem charFun_sphere {n : ℕ} {ν₁ ν₂ : Measure (Amplitudes n)} (h₁ : IsHaar n ν₁) (h₂ : IsHaar n ν₂) (r : ℝ) {u : Amplitudes n}
    (hu : ‖u‖ = 1) : charFun ν₁ (r • u) = ∫ y, ∫ x, Complex.exp ((Inner.inner ℝ x (r • y) : ℝ) * Complex.I) ∂ν₁ ∂ν₂ := by
  have := h₂.prob
  have e : ∀ᵐ y ∂ν₂, (∫ x, Complex.exp ((Inner.inner ℝ x (r • y) : ℝ) * Complex.I) ∂ν₁) = charFun ν₁ (r • u) := by
    filter_upwards [h₂.unit] with y hy
    obtain ⟨U, hU⟩ := unitary_of_unit (by positivity) hu hy
    rw [← charFun_apply, ← charFun_invariant U (h₁.invariant U) (r • u)]
    congr 1
    have : (r • u : Amplitudes n) = (r : ℂ) • u := by ext i; simp
    rw [this, map_smul, hU]
    ext i; simp
  rw [integral_congr_ae e]
  simp

theorem haar_unique {n : ℕ} {ν₁ ν₂ : Measure (Amplitudes n)} (h₁ : IsHaar n ν₁) (h₂ : IsHaar n ν₂) : ν₁ = ν₂ := by
  have := h₁.prob
  have := h₂.prob
  apply Measure.ext_of_charFun
  have key : ∀ (r : ℝ) (u : Amplitudes n), ‖u‖ = 1 → charFun ν₁ (r • u) = charFun ν₂ (r • u) := by
    intro r u hu
    rw [charFun_sphere h₁ h₂ r hu, charFun_sphere h₂ h₁ r hu, integral_integral_swap]
    · congr 1
      funext x
      congr 1
      funext y
      rw [inner_smul_right, inner_smul_right, real_inner_comm]
    · apply Integrable.of_bound (C := 1)
      · apply Continuous.aestronglyMeasurable
        unfold Function.uncurry
        fun_prop
      · apply Filter.Eventually.of_forall
        rintro ⟨y, x⟩
        exact (Complex.norm_exp_ofReal_mul_I _).le
  funext t
  by_cases ht : t = 0
  · rw [ht, charFun_zero, charFun_zero]; simp
  · have e : t = ‖t‖ • ((‖t‖⁻¹ : ℝ) • t) := by
      rw [smul_smul, mul_inv_cancel₀ (norm_ne_zero_iff.2 ht), one_smul]
    rw [e]
    apply key
    rw [norm_smul, norm_inv, norm_norm, inv_mul_cancel₀ (norm_ne_zero_iff.2 ht)]

/-! ## second moments -/

theorem haar_norm_le {n : ℕ} {ν : Measure (Amplitudes n)} (h : IsHaar n ν) (i : Fin (2 ^ n)) : ∀ᵐ x ∂ν, ‖x i‖ ≤ 1 := by
  filter_upwards [h.unit] with x hx
  rw [← hx]
  exact PiLp.norm_apply_le x i

theorem haar_integrable {n : ℕ} {ν : Measure (Amplitudes n)} (h : IsHaar n ν) (i j : Fin (2 ^ n)) :
    Integrable (fun x : Amplitudes n => x i * (starRingEnd ℂ) (x j)) ν := by
  have := h.prob
  apply Integrable.of_bound (C := 1) (by fun_prop)
  filter_upwards [haar_norm_le h i, haar_norm_le h j] with x hi hj
  rw [norm_mul, RCLike.norm_conj]
  exact mul_le_one₀ hi (norm_nonneg _) hj

theorem haar_integral_map {n : ℕ} {ν : Measure (Amplitudes n)} (h : IsHaar n ν) (U : Amplitudes n ≃ₗᵢ[ℂ] Amplitudes n)
    {f : Amplitudes n → ℂ} (hf : Continuous f) : ∫ x, f x ∂ν = ∫ x, f (U x) ∂ν := by
  conv_lhs => rw [← h.invariant U]
  rw [integral_map U.continuous.aemeasurable hf.aestronglyMeasurable]

theorem haar_offdiag {n : ℕ} {ν : Measure (Amplitudes n)} (h : IsHaar n ν) {i j : Fin (2 ^ n)} (hij : i ≠ j) :
    ∫ x : Amplitudes n, x i * (starRingEnd ℂ) (x j) ∂ν = 0 := by
  let U : Amplitudes n ≃ₗᵢ[ℂ] Amplitudes n := LinearIsometryEquiv.piLpCongrRight 2 fun k => if k = i then LinearIsometryEquiv.neg ℂ else LinearIsometryEquiv.refl ℂ ℂ
  have e := haar_integral_map h U (f := fun x => x i * (starRingEnd ℂ) (x j)) (by fun_prop)
  have hU : ∀ x : Amplitudes n, (U x) i * (starRingEnd ℂ) ((U x) j) = -(x i * (starRingEnd ℂ) (x j)) := by
    intro x
    simp only [U, LinearIsometryEquiv.piLpCongrRight_apply, if_true, if_neg hij.symm]
    simp
  simp only [hU, integral_neg] at e
  exact self_eq_neg.1 e

theorem haar_diag_eq {n : ℕ} {ν : Measure (Amplitudes n)} (h : IsHaar n ν) (i j : Fin (2 ^ n)) :
    ∫ x : Amplitudes n, x i * (starRingEnd ℂ) (x i) ∂ν = ∫ x : Amplitudes n, x j * (starRingEnd ℂ) (x j) ∂ν := by
  let U : Amplitudes n ≃ₗᵢ[ℂ] Amplitudes n := LinearIsometryEquiv.piLpCongrLeft 2 ℂ ℂ (Equiv.swap i j)
  rw [haar_integral_map h U (f := fun x => x i * (starRingEnd ℂ) (x i)) (by fun_prop)]
  congr 1
  funext x
  have : (U x) i = x j := by
    simp [U, LinearIsometryEquiv.piLpCongrLeft_apply, Equiv.piCongrLeft'_apply]
  rw [this]

theorem haar_moment {n : ℕ} {ν : Measure (Amplitudes n)} (h : IsHaar n ν) (i j : Fin (2 ^ n)) :
    ∫ x : Amplitudes n, x i * (starRingEnd ℂ) (x j) ∂ν = if i = j then 1 / (2 : ℂ) ^ n else 0 := by
  split
  · next e =>
    subst e
    have := h.prob
    have h1 : ∑ k, ∫ x : Amplitudes n, x k * (starRingEnd ℂ) (x k) ∂ν = 1 := by
      rw [← integral_finset_sum _ fun k _ => haar_integrable h k k]
      have : ∀ᵐ x ∂ν, ∑ k, x k * (starRingEnd ℂ) (x k) = (1 : ℂ) := by
        filter_upwards [h.unit] with x hx
        have h2 := EuclideanSpace.norm_sq_eq x
        rw [hx] at h2
        have h3 : ∀ k, x k * (starRingEnd ℂ) (x k) = ((‖x k‖ ^ 2 : ℝ) : ℂ) := fun k => by
          rw [Complex.mul_conj, Complex.normSq_eq_norm_sq]
        simp only [h3]
        rw [← Complex.ofReal_sum, ← h2]; simp
      rw [integral_congr_ae this]; simp
    rw [Finset.sum_congr rfl fun k _ => haar_diag_eq h k i] at h1
    simp only [Finset.sum_const, Finset.card_univ, Fintype.card_fin, nsmul_eq_mul] at h1
    push_cast at h1
    rw [eq_div_iff (pow_ne_zero _ two_ne_zero), mul_comm]
    exact h1
  · next e => exact haar_offdiag h e

end Verif.Proofs
