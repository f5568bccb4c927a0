import Verif.Proofs.FloatCoef

/-! # Rounding errors of what the kernels compute for one amplitude -/

namespace Verif.Proofs
open Verif Verif.Spec Verif.Model
attribute [-simp] BitVec.getLsbD_eq_getElem

section
variable {F : Type} [Zero F] [One F] [Add F] [Sub F] [Mul F] [Neg F] {lib : FloatLib F} {val : F → ℝ} {u w η Ω ε : ℝ}

local notation "⟪" x "⟫" => cval val x

omit [Zero F] [One F] [Add F] [Sub F] [Mul F] [Neg F] in
theorem Near.real {x y : F} {a δ : ℝ} (h1 : |val x - a| ≤ δ) (h2 : val y = 0) : Near val ⟨x, y⟩ ⟨a, 0⟩ δ := by
  have := norm_le_parts (x := ⟪⟨x, y⟩⟫) (y := ⟨a, 0⟩) (b := 0) h1 (by simp [cval, h2])
  unfold Near; linarith

omit [Zero F] [One F] [Add F] [Sub F] [Mul F] [Neg F] in
theorem Near.imag {x y : F} {a δ : ℝ} (h1 : |val y - a| ≤ δ) (h2 : val x = 0) : Near val ⟨x, y⟩ ⟨0, a⟩ δ := by
  have := norm_le_parts (x := ⟪⟨x, y⟩⟫) (y := ⟨0, a⟩) (a := 0) (by simp [cval, h2]) h1
  unfold Near; linarith

theorem norm_real (a : ℝ) : ‖(⟨a, 0⟩ : ℂ)‖ = |a| := by
  rw [← Complex.ofReal_def, Complex.norm_real, Real.norm_eq_abs]

theorem norm_imag (a : ℝ) : ‖(⟨0, a⟩ : ℂ)‖ = |a| := by
  have : (⟨0, a⟩ : ℂ) = ⟨a, 0⟩ * Complex.I := by apply Complex.ext <;> simp
  rw [this, norm_mul, norm_real, Complex.norm_I, mul_one]

/-- the matrix of the IBMQ gates -/
theorem ibmqF_near (A : Accurate lib val u w η Ω) {a b c : ℝ} (ha : |a| ≤ 32) (hb : |b| ≤ 32) (hc : |c| ≤ 32)
    (hεa : (u + η) * (1 + |a|) + w ≤ ε) (hεb : (u + η) * (1 + |b|) + w ≤ ε) (hεc : (u + η) * (1 + |c|) + w ≤ ε) (h4 : ε ≤ 1 / 400) :
    let M : M22 (Cx F) := ibmqF lib (lib.cast a) (lib.cast b) (lib.cast c)
    let N : M22 ℂ := ibmqF exactLib a b c
    (Near val M.m00 N.m00 (80 * ε) ∧ Near val M.m01 N.m01 (80 * ε) ∧ Near val M.m10 N.m10 (80 * ε) ∧ Near val M.m11 N.m11 (80 * ε)) ∧
    ‖N.m00‖ ≤ 1 ∧ ‖N.m01‖ ≤ 1 ∧ ‖N.m10‖ ≤ 1 ∧ ‖N.m11‖ ≤ 1 := by
  have he := eps_ge A hεa
  have hu0 := A.u_nonneg
  have hη0 := A.eta_nonneg
  have hu : u ≤ 1 / 64 := by linarith
  have hη : η ≤ 1 / 64 := by linarith
  have h0 : 0 ≤ ε := by linarith
  have E1 := expC_near A hb hεb h4
  have E2 := expC_near A hc hεc h4
  have C1 := Near.real (y := (0 : F)) (cosHalf_near A ha hεa h4) A.zero
  have S1 := Near.real (y := (0 : F)) (sinHalf_near A ha hεa h4) A.zero
  have n1 := norm_cis' b
  have n2 := norm_cis' c
  have n3 : ‖(⟨Real.cos (a / 2), 0⟩ : ℂ)‖ ≤ 1 := by rw [norm_real]; exact Real.abs_cos_le_one _
  have n4 : ‖(⟨Real.sin (a / 2), 0⟩ : ℂ)‖ ≤ 1 := by rw [norm_real]; exact Real.abs_sin_le_one _
  have ex : ∀ x : ℝ, (expC exactLib (⟨0, x⟩ : ℂ) : ℂ) = ⟨Real.cos x, Real.sin x⟩ := by
    intro x
    unfold expC scaleC exactLib
    apply Complex.ext <;> simp
  have n2' : ‖-(⟨Real.cos c, Real.sin c⟩ : ℂ)‖ ≤ 1 := by rw [norm_neg]; exact n2
  have M01 := Near.mul A hu hη (E2.neg A) S1 n2' n4 (by linarith) (by linarith)
  have M10 := Near.mul A hu hη E1 S1 n1 n4 (by linarith) (by linarith)
  have M12 := Near.mul A hu hη E1 E2 n1 n2 (by linarith) (by linarith)
  have n12 : ‖(⟨Real.cos b, Real.sin b⟩ : ℂ) * ⟨Real.cos c, Real.sin c⟩‖ ≤ 1 := by
    rw [norm_mul]; exact mul_le_one₀ n1 (norm_nonneg _) n2
  have M11 := Near.mul A hu hη M12 C1 n12 n3 (by linarith) (by linarith)
  have x0 : (ibmqF exactLib a b c : M22 ℂ) = ⟨⟨Real.cos (a / 2), 0⟩, -⟨Real.cos c, Real.sin c⟩ * ⟨Real.sin (a / 2), 0⟩,
      ⟨Real.cos b, Real.sin b⟩ * ⟨Real.sin (a / 2), 0⟩,
      ⟨Real.cos b, Real.sin b⟩ * ⟨Real.cos c, Real.sin c⟩ * ⟨Real.cos (a / 2), 0⟩⟩ := by
    unfold ibmqF
    simp only [cplx_mk, ex]
    rfl
  intro M N
  have hN : N = _ := x0
  rw [hN]
  refine ⟨⟨C1.mono (by linarith), M01.mono (by linarith), M10.mono (by linarith), M11.mono (by linarith)⟩, n3, ?_, ?_, ?_⟩
  · rw [norm_mul]; exact mul_le_one₀ n2' (norm_nonneg _) n4
  · rw [norm_mul]; exact mul_le_one₀ n1 (norm_nonneg _) n4
  · rw [norm_mul]; exact mul_le_one₀ n12 (norm_nonneg _) n3

/-- one more term of a row -/
theorem acc_err (A : Accurate lib val u w η Ω) (hu : u ≤ 1 / 64) (hη : η ≤ 1 / 64) {s p : Cx F} {X Y : ℂ} {δ k l S T : ℝ}
    (hs : ‖⟪s⟫ - X‖ ≤ (δ + k * u) * S + l * η) (hp : ‖⟪p⟫ - Y‖ ≤ (δ + 7 * u) * T + 5 * η) (hd0 : 0 ≤ δ) (hd : δ ≤ 1 / 4)
    (hX : ‖X‖ ≤ S) (hY : ‖Y‖ ≤ T) (hS : S ≤ 12) (hT : T ≤ 4) (hk : 7 ≤ k) (hk' : k ≤ 13) (hl : 0 ≤ l) (hl' : l ≤ 17) :
    ‖⟪s + p⟫ - (X + Y)‖ ≤ (δ + (k + 3) * u) * (S + T) + (l + 6) * η := by
  have hu0 := A.u_nonneg
  have hη0 := A.eta_nonneg
  have hS0 : 0 ≤ S := le_trans (norm_nonneg _) hX
  have hT0 : 0 ≤ T := le_trans (norm_nonneg _) hY
  have ku : k * u ≤ 13 * u := mul_le_mul_of_nonneg_right hk' hu0
  have lη : l * η ≤ 17 * η := mul_le_mul_of_nonneg_right hl' hη0
  have b1 : (δ + k * u) * S ≤ (29 / 64) * S := mul_le_mul_of_nonneg_right (by linarith) hS0
  have b2 : (δ + 7 * u) * T ≤ (23 / 64) * T := mul_le_mul_of_nonneg_right (by linarith) hT0
  have := sum_terms A hs hp (by nlinarith)
  have h1 : u * (‖X‖ + ‖Y‖ + ((δ + k * u) * S + l * η) + ((δ + 7 * u) * T + 5 * η)) ≤ u * ((3 / 2) * (S + T) + 22 * η) :=
    mul_le_mul_of_nonneg_left (by linarith) hu0
  have h2 : u * η ≤ 1 / 64 * η := mul_le_mul_of_nonneg_right hu hη0
  have h3 : 7 * u * T ≤ k * u * T := mul_le_mul_of_nonneg_right (mul_le_mul_of_nonneg_right hk hu0) hT0
  nlinarith

/-- one row of a 4×4 matrix -/
theorem row4_err (A : Accurate lib val u w η Ω) (hu : u ≤ 1 / 64) (hη : η ≤ 1 / 64) {x y z t a b c d : Cx F} {X Y Z T : ℂ} {δ : ℝ}
    (hx : Near val x X δ) (hy : Near val y Y δ) (hz : Near val z Z δ) (ht : Near val t T δ) (hX : ‖X‖ ≤ 1) (hY : ‖Y‖ ≤ 1)
    (hZ : ‖Z‖ ≤ 1) (hT : ‖T‖ ≤ 1) (hd : δ ≤ 1 / 4) (ha : ‖⟪a⟫‖ ≤ 4) (hb : ‖⟪b⟫‖ ≤ 4) (hc : ‖⟪c⟫‖ ≤ 4) (hdd : ‖⟪d⟫‖ ≤ 4) :
    ‖⟪x * a + y * b + z * c + t * d⟫ - (X * ⟪a⟫ + Y * ⟪b⟫ + Z * ⟪c⟫ + T * ⟪d⟫)‖ ≤
      (δ + 16 * u) * (‖⟪a⟫‖ + ‖⟪b⟫‖ + ‖⟪c⟫‖ + ‖⟪d⟫‖) + 23 * η := by
  have n : ∀ {p q : ℂ}, ‖p‖ ≤ 1 → ‖p * q‖ ≤ ‖q‖ := by
    intro p q h; rw [norm_mul]; exact mul_le_of_le_one_left (norm_nonneg _) h
  have ea := coef_mul A hu hη hx hX hd (a := a) (by linarith)
  have eb := coef_mul A hu hη hy hY hd (a := b) (by linarith)
  have ec := coef_mul A hu hη hz hZ hd (a := c) (by linarith)
  have ed := coef_mul A hu hη ht hT hd (a := d) (by linarith)
  have s1 := acc_err A hu hη ea eb hx.nonneg hd (n hX) (n hY) (by linarith) hb (by norm_num) (by norm_num) (by norm_num) (by norm_num)
  have m1 := le_trans (norm_add_le (X * ⟪a⟫) (Y * ⟪b⟫)) (add_le_add (n hX) (n hY))
  have s2 := acc_err A hu hη s1 ec hx.nonneg hd m1 (n hZ) (by linarith) hc (by norm_num) (by norm_num) (by norm_num) (by norm_num)
  have m2 := le_trans (norm_add_le (X * ⟪a⟫ + Y * ⟪b⟫) (Z * ⟪c⟫)) (add_le_add m1 (n hZ))
  have s3 := acc_err A hu hη s2 ed hx.nonneg hd m2 (n hT) (by linarith) hdd (by norm_num) (by norm_num) (by norm_num) (by norm_num)
  refine le_trans s3 (le_of_eq ?_)
  ring

/-- a further factor -/
theorem then_coef (A : Accurate lib val u w η Ω) (hu : u ≤ 1 / 64) (hη : η ≤ 1 / 64) {a x : Cx F} {P X : ℂ} {α δ T : ℝ}
    (ha : ‖⟪a⟫ - P‖ ≤ α) (hP : ‖P‖ ≤ T) (hr : T + α ≤ 12) (hx : Near val x X δ) (hX : ‖X‖ ≤ 1) (hd : δ ≤ 1 / 4) :
    ‖⟪a * x⟫ - P * X‖ ≤ α + (δ + 7 * u) * (T + α) + 5 * η := by
  have hn : ‖⟪a⟫‖ ≤ T + α := by
    have := norm_add_le (⟪a⟫ - P) P; rw [sub_add_cancel] at this; linarith
  have m := mul_coef A hu hη hx hX hd (a := a) (by linarith)
  have e : ⟪a * x⟫ - P * X = (⟪a * x⟫ - ⟪a⟫ * X) + (⟪a⟫ - P) * X := by ring
  have h1 : ‖(⟪a⟫ - P) * X‖ ≤ α := by
    rw [norm_mul]; exact le_trans (mul_le_of_le_one_right (norm_nonneg _) hX) ha
  have h2 : (δ + 7 * u) * ‖⟪a⟫‖ ≤ (δ + 7 * u) * (T + α) :=
    mul_le_mul_of_nonneg_left hn (by have := hx.nonneg; have := A.u_nonneg; linarith)
  rw [e]
  refine le_trans (norm_add_le _ _) ?_
  linarith

/-- one amplitude of the ECR gate -/
theorem ecr_err (A : Accurate lib val u w η Ω) (hε : u + η ≤ ε) (h4 : ε ≤ 1 / 400) {s i a b : Cx F} {S I : ℂ}
    (hs : Near val s S (2 * ε)) (hS : ‖S‖ ≤ 1) (hi : ⟪i⟫ = I) (hI : ‖I‖ ≤ 1) (ha : ‖⟪a⟫‖ ≤ 4) (hb : ‖⟪b⟫‖ ≤ 4) :
    ‖⟪(a + b * i) * s⟫ - (⟪a⟫ + ⟪b⟫ * I) * S‖ ≤ 24 * ε * (‖⟪a⟫‖ + ‖⟪b⟫‖) + 17 * η ∧
    ‖⟪(b * i + a) * s⟫ - (⟪b⟫ * I + ⟪a⟫) * S‖ ≤ 24 * ε * (‖⟪a⟫‖ + ‖⟪b⟫‖) + 17 * η := by
  have hu0 := A.u_nonneg
  have hη0 := A.eta_nonneg
  have hu : u ≤ 1 / 64 := by linarith
  have hη : η ≤ 1 / 64 := by linarith
  have pa := norm_nonneg ⟪a⟫
  have pb := norm_nonneg ⟪b⟫
  have hbi := mul_coef A hu hη (near_self hi) hI (by norm_num) (a := b) (by linarith)
  have nb : ‖⟪b⟫ * I‖ ≤ ‖⟪b⟫‖ := by rw [norm_mul]; exact mul_le_of_le_one_right pb hI
  have haa : ‖⟪a⟫ - ⟪a⟫‖ ≤ (0 + 7 * u) * ‖⟪a⟫‖ + 5 * η := by rw [sub_self, norm_zero]; positivity
  have hεu : u * (‖⟪a⟫‖ + ‖⟪b⟫‖) ≤ ε * (‖⟪a⟫‖ + ‖⟪b⟫‖) := mul_le_mul_of_nonneg_right (by linarith) (by positivity)
  have fin : ∀ y : Cx F, ∀ P : ℂ, ‖⟪y⟫ - P‖ ≤ (0 + (7 + 3) * u) * (‖⟪a⟫‖ + ‖⟪b⟫‖) + (5 + 6) * η → ‖P‖ ≤ ‖⟪a⟫‖ + ‖⟪b⟫‖ →
      ‖⟪y * s⟫ - P * S‖ ≤ 24 * ε * (‖⟪a⟫‖ + ‖⟪b⟫‖) + 17 * η := by
    intro y P hy hP
    have hα : (0 + (7 + 3) * u) * (‖⟪a⟫‖ + ‖⟪b⟫‖) + (5 + 6) * η ≤ (1 / 40) * (‖⟪a⟫‖ + ‖⟪b⟫‖) + 11 * η := by nlinarith
    have t := then_coef A hu hη hy hP (by nlinarith) hs hS (by linarith)
    have h1 : (2 * ε + 7 * u) * (‖⟪a⟫‖ + ‖⟪b⟫‖ + ((0 + (7 + 3) * u) * (‖⟪a⟫‖ + ‖⟪b⟫‖) + (5 + 6) * η)) ≤
        (9 * ε) * ((41 / 40) * (‖⟪a⟫‖ + ‖⟪b⟫‖) + 11 * η) := by
      apply mul_le_mul (by linarith) (by linarith) (by positivity) (by linarith)
    have h2 : ε * η ≤ 1 / 400 * η := mul_le_mul_of_nonneg_right h4 hη0
    have h3 : 0 ≤ ε * (‖⟪a⟫‖ + ‖⟪b⟫‖) := mul_nonneg (by linarith) (by positivity)
    nlinarith
  constructor
  · apply fin
    · refine acc_err A hu hη haa ?_ le_rfl (by norm_num) le_rfl nb (by linarith) hb le_rfl (by norm_num) (by norm_num) (by norm_num)
      exact hbi
    · exact le_trans (norm_add_le _ _) (by linarith)
  · apply fin
    · have := acc_err A hu hη (k := 7) (l := 5) hbi haa le_rfl (by norm_num) nb le_rfl (by linarith) ha le_rfl (by norm_num) (by norm_num) (by norm_num)
      rw [add_comm ‖⟪a⟫‖]
      exact this
    · exact le_trans (norm_add_le _ _) (by linarith)

/-! ## Pauli gates -/

theorem phaseM90F_val (A : Accurate lib val u w η Ω) (k : Nat) : ⟪(phaseM90F k : Cx F)⟫ = (phaseM90F k : ℂ) ∧ ‖(phaseM90F k : ℂ)‖ ≤ 1 := by
  have h : ∀ i : Fin 4,
      ⟪(![Cplx.ofParts 1 0, Cplx.ofParts 0 (-1), Cplx.ofParts (-1) 0, Cplx.ofParts 0 1] : Fin 4 → Cx F) i⟫ =
      (![Cplx.ofParts 1 0, Cplx.ofParts 0 (-1), Cplx.ofParts (-1) 0, Cplx.ofParts 0 1] : Fin 4 → ℂ) i ∧
      ‖(![Cplx.ofParts 1 0, Cplx.ofParts 0 (-1), Cplx.ofParts (-1) 0, Cplx.ofParts 0 1] : Fin 4 → ℂ) i‖ ≤ 1 := by
    intro i
    fin_cases i
    · exact ⟨Complex.ext A.one A.zero, by show ‖(⟨1, 0⟩ : ℂ)‖ ≤ 1; rw [norm_real]; norm_num⟩
    · exact ⟨Complex.ext A.zero ((A.neg 1).trans (by rw [A.one]; rfl)), by show ‖(⟨0, -1⟩ : ℂ)‖ ≤ 1; rw [norm_imag]; norm_num⟩
    · exact ⟨Complex.ext ((A.neg 1).trans (by rw [A.one]; rfl)) A.zero, by show ‖(⟨-1, 0⟩ : ℂ)‖ ≤ 1; rw [norm_real]; norm_num⟩
    · exact ⟨Complex.ext A.zero A.one, by show ‖(⟨0, 1⟩ : ℂ)‖ ≤ 1; rw [norm_imag]; norm_num⟩
  exact h _

/-- one amplitude of a Pauli gate -/
theorem pauli_err (A : Accurate lib val u w η Ω) (hε : u + η ≤ ε) (h4 : ε ≤ 1 / 400) (odd : Bool) {ph y coef : Cx F} {Ph Co : ℂ}
    (hph : ⟪ph⟫ = Ph) (hPh : ‖Ph‖ ≤ 1) (hc : Near val coef Co (2 * ε)) (hCo : ‖Co‖ ≤ 1) (hy : ‖⟪y⟫‖ ≤ 4) :
    ‖⟪(if odd then -(y * ph) else y * ph) * coef⟫ - (if odd then -(⟪y⟫ * Ph) else ⟪y⟫ * Ph) * Co‖ ≤ 20 * ε * ‖⟪y⟫‖ + 11 * η := by
  have hu0 := A.u_nonneg
  have hη0 := A.eta_nonneg
  have hu : u ≤ 1 / 64 := by linarith
  have hη : η ≤ 1 / 64 := by linarith
  have py := norm_nonneg ⟪y⟫
  have h1 := mul_coef A hu hη (near_self hph) hPh (by norm_num) (a := y) (by linarith)
  have n1 : ‖⟪y⟫ * Ph‖ ≤ ‖⟪y⟫‖ := by rw [norm_mul]; exact mul_le_of_le_one_right py hPh
  have h2 : ‖⟪if odd then -(y * ph) else y * ph⟫ - (if odd then -(⟪y⟫ * Ph) else ⟪y⟫ * Ph)‖ ≤ (0 + 7 * u) * ‖⟪y⟫‖ + 5 * η := by
    cases odd with
    | false => exact h1
    | true =>
      simp only [if_true]
      rw [cval_neg A, ← neg_sub', norm_neg]; exact h1
  have n2 : ‖(if odd then -(⟪y⟫ * Ph) else ⟪y⟫ * Ph)‖ ≤ ‖⟪y⟫‖ := by
    cases odd with
    | false => exact n1
    | true => simp only [if_true]; rw [norm_neg]; exact n1
  have hα : (0 + 7 * u) * ‖⟪y⟫‖ + 5 * η ≤ (1 / 50) * ‖⟪y⟫‖ + 5 * η := by nlinarith
  have t := then_coef A hu hη h2 n2 (by nlinarith) hc hCo (by linarith)
  have h3 : (2 * ε + 7 * u) * (‖⟪y⟫‖ + ((0 + 7 * u) * ‖⟪y⟫‖ + 5 * η)) ≤ (9 * ε) * ((51 / 50) * ‖⟪y⟫‖ + 5 * η) :=
    mul_le_mul (by linarith) (by linarith) (by positivity) (by linarith)
  have h5 : ε * η ≤ 1 / 400 * η := mul_le_mul_of_nonneg_right h4 hη0
  have h6 : u * ‖⟪y⟫‖ ≤ ε * ‖⟪y⟫‖ := mul_le_mul_of_nonneg_right (by linarith) py
  nlinarith

/-- the angle of a Pauli rotation, `x` an angle near `a` and `c` the coefficient -/
theorem rot_prod (A : Accurate lib val u w η Ω) {x : F} {a c : ℝ} (ha : |a| ≤ 32) (hc : |c| ≤ 1) (hε : (u + η) * (1 + |a|) + w ≤ ε)
    (h4 : ε ≤ 1 / 400) (h1 : |val x - a| + w ≤ ε) (h2 : |val x| ≤ 33) :
    |val (x * lib.cast c) - a * c| ≤ 2 * ε + η + (ε * (1 + ε) + ε) ∧ |val (x * lib.cast c)| ≤ 33 := by
  have hc1 := cast_small A hc
  have hu0 := A.u_nonneg
  have hη0 := A.eta_nonneg
  have hw0 := A.w_nonneg
  have he := eps_ge A hε
  have pa := abs_nonneg a
  have hcc : |val (lib.cast c)| ≤ 1 + ε := by
    have := abs_add_le (val (lib.cast c) - c) c; rw [sub_add_cancel] at this; linarith
  have pcc := abs_nonneg (val (lib.cast c))
  have pca := abs_nonneg (val (x))
  have hprod : |val (x) * val (lib.cast c)| ≤ 33 * (1 + ε) := by
    rw [abs_mul]; exact mul_le_mul h2 hcc pcc (by norm_num)
  have hm := A.mul (x) (lib.cast c) (by linarith) (by linarith)
  have hua : (u + η) * |a| ≤ ε := by nlinarith
  have huprod : u * |val (x) * val (lib.cast c)| ≤ 2 * ε := by
    rw [abs_mul]
    have hca : |val (x)| ≤ |a| + ε := by
      have := abs_add_le (val (x) - a) a; rw [sub_add_cancel] at this; linarith
    have : |val (x)| * |val (lib.cast c)| ≤ (|a| + ε) * (1 + ε) := mul_le_mul hca hcc pcc (by linarith)
    have h3 : u * (|val (x)| * |val (lib.cast c)|) ≤ u * ((|a| + ε) * (1 + ε)) := mul_le_mul_of_nonneg_left this hu0
    have h5 : (|a| + ε) * (1 + ε) ≤ (11 / 10) * |a| + 1 / 10 := by nlinarith
    have h6 : u * ((|a| + ε) * (1 + ε)) ≤ u * ((11 / 10) * |a| + 1 / 10) := mul_le_mul_of_nonneg_left h5 hu0
    nlinarith [mul_nonneg hη0 pa]
  have hex : |val (x) * val (lib.cast c) - a * c| ≤ ε * (1 + ε) + ε := by
    have e : val (x) * val (lib.cast c) - a * c = (val (x) - a) * val (lib.cast c) + a * (val (lib.cast c) - c) := by ring
    rw [e]
    refine le_trans (abs_add_le _ _) ?_
    rw [abs_mul, abs_mul]
    have q1 : |val (x) - a| * |val (lib.cast c)| ≤ ε * (1 + ε) := mul_le_mul (by linarith) hcc pcc (by linarith)
    have q2 : |a| * |val (lib.cast c) - c| ≤ |a| * (u + η) := mul_le_mul_of_nonneg_left hc1 pa
    linarith
  have hee : ε * ε ≤ 1 / 400 * ε := mul_le_mul_of_nonneg_right h4 (by linarith)
  have hmm : |val (x * lib.cast c) - a * c| ≤ 2 * ε + η + (ε * (1 + ε) + ε) :=
    le_trans (abs_sub_le _ (val (x) * val (lib.cast c)) _) (by linarith)
  have hac : |a * c| ≤ 32 := by rw [abs_mul]; nlinarith [abs_nonneg c]
  have hrng : |val (x * lib.cast c)| ≤ 33 := by
    have := abs_add_le (val (x * lib.cast c) - a * c) (a * c); rw [sub_add_cancel] at this; nlinarith
  exact ⟨hmm, hrng⟩

/-- half of a number near `a` -/
theorem rot_half (A : Accurate lib val u w η Ω) {y : F} {t : ℝ} (ht : |t| ≤ 32) (hε : u + η + w ≤ ε) (h4 : ε ≤ 1 / 400)
    (hmm : |val y - t| ≤ 2 * ε + η + (ε * (1 + ε) + ε)) (hrng : |val y| ≤ 33) :
    |val (lib.half y) - t / 2| + w ≤ 4 * ε ∧ |val (lib.half y)| ≤ 33 := by
  have hu0 := A.u_nonneg
  have hη0 := A.eta_nonneg
  have hw0 := A.w_nonneg
  have hee : ε * ε ≤ 1 / 400 * ε := mul_le_mul_of_nonneg_right h4 (by linarith)
  have hh := A.half y (by linarith)
  have h3 : |val y / 2 - t / 2| = |val y - t| / 2 := by
    rw [← sub_div, abs_div, abs_two]
  have h5 : |val (lib.half y) - t / 2| ≤ η + (2 * ε + η + (ε * (1 + ε) + ε)) / 2 :=
    le_trans (abs_sub_le _ (val y / 2) _) (by rw [h3]; linarith)
  have hfin : |val (lib.half y) - t / 2| + w ≤ 4 * ε := by nlinarith
  refine ⟨hfin, ?_⟩
  have := abs_add_le (val (lib.half y) - t / 2) (t / 2)
  rw [sub_add_cancel, abs_div, abs_two] at this
  linarith

theorem eps_sum (A : Accurate lib val u w η Ω) {a : ℝ} (hε : (u + η) * (1 + |a|) + w ≤ ε) : u + η + w ≤ ε := by
  nlinarith [abs_nonneg a, mul_nonneg (add_nonneg A.u_nonneg A.eta_nonneg) (abs_nonneg a)]

/-- the half angle of a Pauli rotation, in both orders of halving and changing the sign -/
theorem rot_angle (A : Accurate lib val u w η Ω) {x : F} {a c : ℝ} (ha : |a| ≤ 32) (hc : |c| ≤ 1) (hε : (u + η) * (1 + |a|) + w ≤ ε)
    (h4 : ε ≤ 1 / 400) (h1 : |val x - a| + w ≤ ε) (h2 : |val x| ≤ 33) :
    (|val (-lib.half (x * lib.cast c)) - -(a * c / 2)| + w ≤ 4 * ε ∧ |val (-lib.half (x * lib.cast c))| ≤ 33) ∧
    (|val (lib.half (-(x * lib.cast c))) - -(a * c / 2)| + w ≤ 4 * ε ∧ |val (lib.half (-(x * lib.cast c)))| ≤ 33) := by
  obtain ⟨p1, p2⟩ := rot_prod A ha hc hε h4 h1 h2
  have hac : |a * c| ≤ 32 := by rw [abs_mul]; nlinarith [abs_nonneg c, abs_nonneg a]
  constructor
  · rw [A.neg, ← neg_sub', abs_neg, abs_neg]
    exact rot_half A hac (eps_sum A hε) h4 p1 p2
  · have e : -(a * c / 2) = -(a * c) / 2 := by ring
    rw [e]
    refine rot_half A (by rw [abs_neg]; exact hac) (eps_sum A hε) h4 ?_ ?_
    · rw [A.neg, ← neg_sub', abs_neg]; exact p1
    · rw [A.neg, abs_neg]; exact p2

/-- complex cosine and sine of a number near the real `θ` -/
theorem trig_near (A : Accurate lib val u w η Ω) {z : Cx F} {θ : ℝ} (he : u + η ≤ ε) (h4 : ε ≤ 1 / 400)
    (h1 : |val z.re - θ| + w ≤ 4 * ε) (h2 : |val z.re| ≤ 33) (him : val z.im = 0) :
    Near val (cosC lib z) ⟨Real.cos θ, 0⟩ (6 * ε) ∧ Near val (sinC lib z) ⟨Real.sin θ, 0⟩ (6 * ε) := by
  have hu0 := A.u_nonneg
  have hη0 := A.eta_nonneg
  have hw0 := A.w_nonneg
  have hcos := cos_near A (by linarith) h1
  have hsin := sin_near A (by linarith) h1
  have c1 := A.cosh_zero _ him
  have s1 := A.sinh_zero _ him
  have r1 : |val (lib.cos z.re)| ≤ 64 := by
    have := abs_add_le (val (lib.cos z.re) - Real.cos θ) (Real.cos θ)
    rw [sub_add_cancel] at this
    have := Real.abs_cos_le_one θ
    linarith
  have r2 : |val (lib.sin z.re)| ≤ 64 := by
    have := abs_add_le (val (lib.sin z.re) - Real.sin θ) (Real.sin θ)
    rw [sub_add_cancel] at this
    have := Real.abs_sin_le_one θ
    linarith
  have r3 : |val (lib.sinh z.im)| ≤ 64 := by rw [s1]; norm_num
  constructor
  · refine Near.real ?_ ?_
    · exact le_trans (mul_one_near A c1 (Real.abs_cos_le_one _) hcos (by linarith)) (by linarith)
    · exact A.mul_zero _ _ (.inr s1) (by rw [A.neg, abs_neg]; exact r2) r3
  · refine Near.real ?_ ?_
    · exact le_trans (mul_one_near A c1 (Real.abs_sin_le_one _) hsin (by linarith)) (by linarith)
    · exact A.mul_zero _ _ (.inr s1) r1 r3

/-- cosine and sine of the half angle of a Pauli rotation with a real coefficient, `x` an angle near `a` -/
theorem rot_near (A : Accurate lib val u w η Ω) {x : F} {a : ℝ} {c : ℂ} (ha : |a| ≤ 32) (hc : |c.re| ≤ 1) (hc0 : c.im = 0)
    (hε : (u + η) * (1 + |a|) + w ≤ ε) (h4 : ε ≤ 1 / 400) (h1 : |val x - a| + w ≤ ε) (h2 : |val x| ≤ 33) :
    (Near val (cosC lib (-halfC lib (scaleC x (castC lib c : Cx F)))) ⟨Real.cos (-(a * c.re / 2)), 0⟩ (6 * ε) ∧
    Near val (sinC lib (-halfC lib (scaleC x (castC lib c : Cx F)))) ⟨Real.sin (-(a * c.re / 2)), 0⟩ (6 * ε)) ∧
    (Near val (cosC lib (halfC lib (-scaleC x (castC lib c : Cx F)))) ⟨Real.cos (-(a * c.re / 2)), 0⟩ (6 * ε) ∧
    Near val (sinC lib (halfC lib (-scaleC x (castC lib c : Cx F)))) ⟨Real.sin (-(a * c.re / 2)), 0⟩ (6 * ε)) := by
  obtain ⟨⟨a1, a2⟩, b1, b2⟩ := rot_angle A ha hc hε h4 h1 h2
  have he := eps_ge A hε
  have h0 : val (x * lib.cast c.im) = 0 := by
    rw [hc0]; exact A.mul_zero _ _ (.inr A.cast_zero) (by linarith) (by rw [A.cast_zero]; norm_num)
  exact ⟨trig_near A he h4 (z := -halfC lib (scaleC x (castC lib c : Cx F))) a1 a2
      (show val (-lib.half (x * lib.cast c.im)) = 0 by rw [A.neg, A.half_zero _ h0, neg_zero]),
    trig_near A he h4 (z := halfC lib (-scaleC x (castC lib c : Cx F))) b1 b2
      (show val (lib.half (-(x * lib.cast c.im))) = 0 from A.half_zero _ (by rw [A.neg, h0, neg_zero]))⟩

/-- the factors of a diagonal Pauli rotation -/
theorem rotDiag_near (A : Accurate lib val u w η Ω) (hε : u + η ≤ ε) (h4 : ε ≤ 1 / 400) {cs sn : Cx F} {θ : ℝ}
    (hc : Near val cs ⟨Real.cos θ, 0⟩ (6 * ε)) (hs : Near val sn ⟨Real.sin θ, 0⟩ (6 * ε)) :
    (Near val (cs - ⟨0, 1⟩ * sn) (⟨Real.cos θ, 0⟩ - ⟨0, 1⟩ * ⟨Real.sin θ, 0⟩) (34 * ε) ∧
      Near val (cs + ⟨0, 1⟩ * sn) (⟨Real.cos θ, 0⟩ + ⟨0, 1⟩ * ⟨Real.sin θ, 0⟩) (34 * ε)) ∧
    ‖(⟨Real.cos θ, 0⟩ - ⟨0, 1⟩ * ⟨Real.sin θ, 0⟩ : ℂ)‖ ≤ 1 ∧ ‖(⟨Real.cos θ, 0⟩ + ⟨0, 1⟩ * ⟨Real.sin θ, 0⟩ : ℂ)‖ ≤ 1 := by
  have hu0 := A.u_nonneg
  have hη0 := A.eta_nonneg
  have hu : u ≤ 1 / 64 := by linarith
  have hη : η ≤ 1 / 64 := by linarith
  have nc : ‖(⟨Real.cos θ, 0⟩ : ℂ)‖ ≤ 1 := by rw [norm_real]; exact Real.abs_cos_le_one _
  have ns : ‖(⟨Real.sin θ, 0⟩ : ℂ)‖ ≤ 1 := by rw [norm_real]; exact Real.abs_sin_le_one _
  have ni : ‖(⟨0, 1⟩ : ℂ)‖ ≤ 1 := by rw [norm_imag]; norm_num
  have hi : Near val (⟨0, 1⟩ : Cx F) ⟨0, 1⟩ 0 := near_self (Complex.ext A.zero A.one)
  have m := (Near.mul A hu hη hi hs ni ns (by norm_num) (by linarith)).mono (δ' := 20 * ε) (by linarith)
  have nm : ‖(⟨0, 1⟩ * ⟨Real.sin θ, 0⟩ : ℂ)‖ ≤ 1 := by rw [norm_mul]; exact mul_le_one₀ ni (norm_nonneg _) ns
  have bu : u * (‖(⟨Real.cos θ, 0⟩ : ℂ)‖ + ‖(⟨0, 1⟩ * ⟨Real.sin θ, 0⟩ : ℂ)‖ + 6 * ε + 20 * ε) ≤ u * 3 :=
    mul_le_mul_of_nonneg_left (by linarith) hu0
  refine ⟨⟨?_, ?_⟩, ?_, ?_⟩
  · refine le_trans (diff_terms A hc m (by linarith)) (by linarith)
  · refine le_trans (sum_terms A hc m (by linarith)) (by linarith)
  · have e : (⟨Real.cos θ, 0⟩ - ⟨0, 1⟩ * ⟨Real.sin θ, 0⟩ : ℂ) = ⟨Real.cos (-θ), Real.sin (-θ)⟩ := by
      apply Complex.ext <;> simp
    rw [e]; exact norm_cis' _
  · have e : (⟨Real.cos θ, 0⟩ + ⟨0, 1⟩ * ⟨Real.sin θ, 0⟩ : ℂ) = ⟨Real.cos θ, Real.sin θ⟩ := by
      apply Complex.ext <;> simp
    rw [e]; exact norm_cis' _

/-- one amplitude of a Pauli rotation -/
theorem rotFlip_err (A : Accurate lib val u w η Ω) (hε : u + η ≤ ε) (h4 : ε ≤ 1 / 400) {cs sn ph a b : Cx F} {θ : ℝ} {Ph : ℂ}
    (hc : Near val cs ⟨Real.cos θ, 0⟩ (6 * ε)) (hs : Near val sn ⟨Real.sin θ, 0⟩ (6 * ε)) (hph : ⟪ph⟫ = Ph) (hPh : ‖Ph‖ ≤ 1)
    (ha : ‖⟪a⟫‖ ≤ 4) (hb : ‖⟪b⟫‖ ≤ 4) :
    ‖⟪cs * a + ⟨0, 1⟩ * sn * b * ph⟫ - (⟨Real.cos θ, 0⟩ * ⟪a⟫ + ⟨0, 1⟩ * ⟨Real.sin θ, 0⟩ * ⟪b⟫ * Ph)‖ ≤
      40 * ε * (‖⟪a⟫‖ + ‖⟪b⟫‖) + 18 * η := by
  have hu0 := A.u_nonneg
  have hη0 := A.eta_nonneg
  have hu : u ≤ 1 / 64 := by linarith
  have hη : η ≤ 1 / 64 := by linarith
  have pa := norm_nonneg ⟪a⟫
  have pb := norm_nonneg ⟪b⟫
  have h0 : 0 ≤ ε := by linarith
  have nc : ‖(⟨Real.cos θ, 0⟩ : ℂ)‖ ≤ 1 := by rw [norm_real]; exact Real.abs_cos_le_one _
  have ns : ‖(⟨Real.sin θ, 0⟩ : ℂ)‖ ≤ 1 := by rw [norm_real]; exact Real.abs_sin_le_one _
  have ni : ‖(⟨0, 1⟩ : ℂ)‖ ≤ 1 := by rw [norm_imag]; norm_num
  have hi : Near val (⟨0, 1⟩ : Cx F) ⟨0, 1⟩ 0 := near_self (Complex.ext A.zero A.one)
  have m := (Near.mul A hu hη hi hs ni ns (by norm_num) (by linarith)).mono (δ' := 20 * ε) (by linarith)
  have nm : ‖(⟨0, 1⟩ * ⟨Real.sin θ, 0⟩ : ℂ)‖ ≤ 1 := by rw [norm_mul]; exact mul_le_one₀ ni (norm_nonneg _) ns
  have eu : u * ‖⟪b⟫‖ ≤ ε * ‖⟪b⟫‖ := mul_le_mul_of_nonneg_right (by linarith) pb
  have eua : u * ‖⟪a⟫‖ ≤ ε * ‖⟪a⟫‖ := mul_le_mul_of_nonneg_right (by linarith) pa
  have e4b : ε * ‖⟪b⟫‖ ≤ 1 / 400 * ‖⟪b⟫‖ := mul_le_mul_of_nonneg_right h4 pb
  have e4a : ε * ‖⟪a⟫‖ ≤ 1 / 400 * ‖⟪a⟫‖ := mul_le_mul_of_nonneg_right h4 pa
  have e4η : u * η ≤ 1 / 400 * η := mul_le_mul_of_nonneg_right (by linarith) hη0
  have p1 := coef_mul A hu hη m nm (by linarith) (a := b) (by linarith)
  have p1' : ‖⟪⟨0, 1⟩ * sn * b⟫ - ⟨0, 1⟩ * ⟨Real.sin θ, 0⟩ * ⟪b⟫‖ ≤ 27 * ε * ‖⟪b⟫‖ + 5 * η := by linarith
  have n1 : ‖⟨0, 1⟩ * ⟨Real.sin θ, 0⟩ * ⟪b⟫‖ ≤ ‖⟪b⟫‖ := by rw [norm_mul]; exact mul_le_of_le_one_left pb nm
  have p2 := then_coef A hu hη p1' n1 (by linarith) (near_self hph) hPh (by norm_num)
  have p2u : u * (‖⟪b⟫‖ + (27 * ε * ‖⟪b⟫‖ + 5 * η)) ≤ (11 / 10) * (ε * ‖⟪b⟫‖) + 1 / 50 * η := by
    have : u * (27 * ε * ‖⟪b⟫‖) ≤ 1 / 400 * (27 * ε * ‖⟪b⟫‖) := mul_le_mul_of_nonneg_right (by linarith) (by positivity)
    have := mul_nonneg h0 pb
    linarith
  have p2' : ‖⟪⟨0, 1⟩ * sn * b * ph⟫ - ⟨0, 1⟩ * ⟨Real.sin θ, 0⟩ * ⟪b⟫ * Ph‖ ≤ 36 * ε * ‖⟪b⟫‖ + 11 * η := by
    have := mul_nonneg h0 pb
    linarith
  have n2 : ‖⟨0, 1⟩ * ⟨Real.sin θ, 0⟩ * ⟪b⟫ * Ph‖ ≤ ‖⟪b⟫‖ := by
    rw [norm_mul]; exact le_trans (mul_le_of_le_one_right (norm_nonneg _) hPh) n1
  have q1 := coef_mul A hu hη hc nc (by linarith) (a := a) (by linarith)
  have q1' : ‖⟪cs * a⟫ - ⟨Real.cos θ, 0⟩ * ⟪a⟫‖ ≤ 13 * ε * ‖⟪a⟫‖ + 5 * η := by linarith
  have n3 : ‖⟨Real.cos θ, 0⟩ * ⟪a⟫‖ ≤ ‖⟪a⟫‖ := by rw [norm_mul]; exact mul_le_of_le_one_left pa nc
  have s := sum_terms A q1' p2' (by linarith)
  have su : u * (‖⟨Real.cos θ, 0⟩ * ⟪a⟫‖ + ‖⟨0, 1⟩ * ⟨Real.sin θ, 0⟩ * ⟪b⟫ * Ph‖ + (13 * ε * ‖⟪a⟫‖ + 5 * η) + (36 * ε * ‖⟪b⟫‖ + 11 * η)) ≤
      u * ((11 / 10) * (‖⟪a⟫‖ + ‖⟪b⟫‖) + 16 * η) := mul_le_mul_of_nonneg_left (by linarith) hu0
  have := mul_nonneg h0 pb
  have := mul_nonneg h0 pa
  nlinarith

end

end Verif.Proofs
