import Verif.Spec.FloatVec
import Verif.Proofs.FloatCircuit
import Verif.Proofs.FloatRead
import Verif.Proofs.FloatReal
import Verif.Proofs.StateOps
import Verif.Proofs.StateVec

/-! # Rounding errors of normalisation and linear combination -/

namespace Verif.Proofs
open Verif Verif.Spec Verif.Model
attribute [-simp] BitVec.getLsbD_eq_getElem

/-- amplitude by amplitude to norms -/
theorem vec_norm_mono {n : Nat} {d a : U64 → ℂ} (hn : n ≤ 63) (h : ∀ j, j.toNat < 2 ^ n → ‖d j‖ ≤ ‖a j‖) : ‖vec n d‖ ≤ ‖vec n a‖ := by
  rw [← sqrt_normSq hn, ← sqrt_normSq hn]
  apply Real.sqrt_le_sqrt
  rw [normSq_norm, normSq_norm]
  refine Finset.sum_le_sum fun j hj => ?_
  rw [mem_indices (pow64 hn)] at hj
  exact pow_le_pow_left₀ (norm_nonneg _) (h j hj) 2

theorem vec_abs {n : Nat} (hn : n ≤ 63) (ψ : U64 → ℂ) : ‖vec n (fun j => (‖ψ j‖ : ℂ))‖ = ‖vec n ψ‖ :=
  le_antisymm (vec_norm_mono hn fun j _ => by simp) (vec_norm_mono hn fun j _ => by simp)

theorem vec_const {n : Nat} (hn : n ≤ 63) {D : ℝ} (hD : 0 ≤ D) : ‖vec n (fun _ => (D : ℂ))‖ ≤ D * √((2 ^ n : Nat) : ℝ) := by
  rw [← sqrt_normSq hn, normSq_norm, Finset.sum_const, nsmul_eq_mul, Complex.norm_real, Real.norm_of_nonneg hD]
  rw [Real.sqrt_le_left (by positivity), mul_pow, Real.sq_sqrt (by positivity), mul_comm]
  exact mul_le_mul_of_nonneg_left (by exact_mod_cast card_indices') (by positivity)

theorem vec_bound {n : Nat} (hn : n ≤ 63) {d ψ φ : U64 → ℂ} {C D : ℝ} (hC : 0 ≤ C) (hD : 0 ≤ D)
    (h : ∀ j, j.toNat < 2 ^ n → ‖d j‖ ≤ C * (‖ψ j‖ + ‖φ j‖) + D) :
    ‖vec n d‖ ≤ C * (‖vec n ψ‖ + ‖vec n φ‖) + D * √((2 ^ n : Nat) : ℝ) := by
  have e : ∀ j, ((C : ℂ) * ((‖ψ j‖ : ℂ) + (‖φ j‖ : ℂ)) + (D : ℂ)) = ((C * (‖ψ j‖ + ‖φ j‖) + D : ℝ) : ℂ) := fun j => by push_cast; rfl
  refine (vec_norm_mono hn (a := fun j => (C : ℂ) * ((‖ψ j‖ : ℂ) + (‖φ j‖ : ℂ)) + (D : ℂ)) fun j hj => ?_).trans ?_
  · rw [e, Complex.norm_real, Real.norm_of_nonneg (by positivity)]
    exact h j hj
  · rw [vec_add n (fun j => (C : ℂ) * ((‖ψ j‖ : ℂ) + (‖φ j‖ : ℂ))) (fun _ => (D : ℂ)), vec_smul, vec_add]
    refine (norm_add_le _ _).trans (add_le_add ?_ (vec_const hn hD))
    rw [norm_smul, Complex.norm_real, Real.norm_of_nonneg hC]
    refine mul_le_mul_of_nonneg_left ?_ hC
    refine (norm_add_le _ _).trans_eq ?_
    rw [vec_abs hn, vec_abs hn]

/-- the error of `x / sqrt(s)` when `s` is near `P` -/
theorem quotient_err {x s N P q ρ u η : ℝ} (hP : 0 < P) (hu0 : 0 ≤ u) (hu : u ≤ 1 / 64) (hρ0 : 0 ≤ ρ) (hρ : ρ ≤ 1 / 4)
    (hs : |s - P| ≤ ρ * P) (hN : |N - √s| ≤ u * √s) :
    0 < N ∧ |x / N| ≤ 2 * (|x| / √P) ∧ (|q - x / N| ≤ u * |x / N| + η → |q - x / √P| ≤ (2 * ρ + 6 * u) * (|x| / √P) + η) := by
  have hT : 0 < √P := Real.sqrt_pos.2 hP
  have hT2 := Real.sq_sqrt hP.le
  have hs0 : 0 ≤ s := by rw [abs_le] at hs; nlinarith
  have hS0 := Real.sqrt_nonneg s
  have hS2 := Real.sq_sqrt hs0
  generalize √P = T at *
  generalize √s = S at *
  -- the square root
  have h1 : |S - T| ≤ ρ * T := by
    have e : |S - T| * (S + T) = |s - P| := by
      rw [← abs_of_nonneg (show 0 ≤ S + T by linarith), ← abs_mul, ← hS2, ← hT2]
      congr 1; ring
    have h2 : |S - T| * T ≤ (ρ * T) * T := by
      calc |S - T| * T ≤ |S - T| * (S + T) := mul_le_mul_of_nonneg_left (by linarith) (abs_nonneg _)
        _ ≤ ρ * P := by rw [e]; exact hs
        _ = _ := by rw [← hT2]; ring
    exact le_of_mul_le_mul_right h2 hT
  have hST : S ≤ 5 / 4 * T := by rw [abs_le] at h1; nlinarith
  have h2 : |N - T| ≤ (ρ + 5 / 4 * u) * T := by
    have := abs_add_le (N - S) (S - T)
    rw [sub_add_sub_cancel] at this
    have : u * S ≤ u * (5 / 4 * T) := mul_le_mul_of_nonneg_left hST hu0
    nlinarith
  have hτ : ρ + 5 / 4 * u ≤ 9 / 32 := by linarith
  have hN1 : 23 / 32 * T ≤ N := by
    rw [abs_le] at h2
    nlinarith
  have hN0 : 0 < N := by linarith
  have hx := abs_nonneg x
  have hr : |x| / N ≤ 32 / 23 * (|x| / T) := by
    rw [div_le_iff₀ hN0, show 32 / 23 * (|x| / T) * N = |x| * (32 / 23 * (N / T)) by ring]
    refine le_mul_of_one_le_right hx ?_
    have : 23 / 32 ≤ N / T := by rw [le_div_iff₀ hT]; exact hN1
    linarith
  have hdist : |x / N - x / T| ≤ 32 / 23 * (ρ + 5 / 4 * u) * (|x| / T) := by
    have e : x / N - x / T = (T - N) / T * (x / N) := by field_simp
    rw [e, abs_mul, abs_div, abs_div, abs_of_pos hT, abs_of_pos hN0, abs_sub_comm]
    have h3 : |N - T| / T ≤ ρ + 5 / 4 * u := by rw [div_le_iff₀ hT]; exact h2
    calc _ ≤ (ρ + 5 / 4 * u) * (32 / 23 * (|x| / T)) := mul_le_mul h3 hr (by positivity) (by positivity)
      _ = _ := by ring
  have hq : 0 ≤ |x| / T := by positivity
  refine ⟨hN0, ?_, fun h => ?_⟩
  · rw [abs_div, abs_of_pos hN0]; linarith
  · have h4 := abs_add_le (q - x / N) (x / N - x / T)
    rw [sub_add_sub_cancel] at h4
    have h5 : u * |x / N| ≤ u * (32 / 23 * (|x| / T)) := by
      rw [abs_div, abs_of_pos hN0]; exact mul_le_mul_of_nonneg_left hr hu0
    have h6 : 0 ≤ u * (|x| / T) := by positivity
    have h7 : 0 ≤ ρ * (|x| / T) := by positivity
    nlinarith

section
variable {F : Type} [_root_.Zero F] [One F] [Add F] [Sub F] [Mul F] [Neg F] {lib : FloatLib F} {E : DivLib F} {val : F → ℝ} {u w η Ω : ℝ}

local notation "⟪" x "⟫" => cval val x

/-- one amplitude of a normalised state -/
theorem overC_err (hD : DivAccurate E val u η Ω) (hu0 : 0 ≤ u) (hu : u ≤ 1 / 64) {P ρ : ℝ} (hP : 0 < P) (hPΩ : 2 * P ≤ Ω) (hρ0 : 0 ≤ ρ)
    (hρ : ρ ≤ 1 / 4) {s : F} (hs : |val s - P| ≤ ρ * P) {a : Cx F} (h4 : ‖⟪a⟫‖ ≤ 4) (ha : ‖⟪a⟫‖ ≤ √P) :
    ‖⟪overC E a (E.sqrt s)⟫ - ⟪a⟫ / (√P : ℝ)‖ ≤ (4 * ρ + 12 * u) * ‖⟪a⟫ / (√P : ℝ)‖ + 2 * η := by
  have hT : 0 < √P := Real.sqrt_pos.2 hP
  have hs0 : 0 ≤ val s := by rw [abs_le] at hs; nlinarith
  have hsΩ : val s ≤ Ω := by rw [abs_le] at hs; nlinarith
  have hN := hD.sqrt s hs0 hsΩ
  have part : ∀ x : F, |val x| ≤ ‖⟪a⟫‖ → |val (E.div x (E.sqrt s)) - val x / √P| ≤ (2 * ρ + 6 * u) * (‖⟪a⟫‖ / √P) + η := by
    intro x hx
    obtain ⟨q1, q2, q3⟩ := quotient_err (x := val x) (q := val (E.div x (E.sqrt s))) (η := η) hP hu0 hu hρ0 hρ hs hN
    have hle : |val x| / √P ≤ ‖⟪a⟫‖ / √P := div_le_div_of_nonneg_right hx hT.le
    have h1 : ‖⟪a⟫‖ / √P ≤ 1 := (div_le_one hT).2 ha
    refine (q3 (hD.div _ _ (by linarith) q1.ne' (by linarith))).trans ?_
    have : (2 * ρ + 6 * u) * (|val x| / √P) ≤ (2 * ρ + 6 * u) * (‖⟪a⟫‖ / √P) := mul_le_mul_of_nonneg_left hle (by positivity)
    linarith
  have h1 := part a.re (Complex.abs_re_le_norm ⟪a⟫)
  have h2 := part a.im (Complex.abs_im_le_norm ⟪a⟫)
  have e1 : (⟪a⟫ / ((√P : ℝ) : ℂ)).re = val a.re / √P := Complex.div_ofReal_re _ _
  have e2 : (⟪a⟫ / ((√P : ℝ) : ℂ)).im = val a.im / √P := Complex.div_ofReal_im _ _
  have e3 : ‖⟪a⟫ / ((√P : ℝ) : ℂ)‖ = ‖⟪a⟫‖ / √P := by rw [norm_div, Complex.norm_real, Real.norm_of_nonneg hT.le]
  have := norm_le_parts (x := ⟪overC E a (E.sqrt s)⟫) (y := ⟪a⟫ / ((√P : ℝ) : ℂ)) 
    (a := (2 * ρ + 6 * u) * (‖⟪a⟫‖ / √P) + η) (b := (2 * ρ + 6 * u) * (‖⟪a⟫‖ / √P) + η) (by rw [e1]; exact h1) (by rw [e2]; exact h2)
  rw [e3]
  linarith

/-- the kernel of `normalize` -/
theorem divideF_err (hD : DivAccurate E val u η Ω) (hu0 : 0 ≤ u) (hη0 : 0 ≤ η) (hu : u ≤ 1 / 64) {n : Nat} (hn : n ≤ 63) {m : U64 → Cx F}
    (hm : ∀ j : U64, j.toNat < 2 ^ n → ‖⟪m j⟫‖ ≤ 4) {P ρ : ℝ} (hP : P = normSq (2 ^ n) fun j => ⟪m j⟫) (hP0 : 0 < P) (hPΩ : 2 * P ≤ Ω)
    (hρ0 : 0 ≤ ρ) (hρ : ρ ≤ 1 / 4) {s : F} (hs : |val s - P| ≤ ρ * P) :
    ∃ m', DRuns (2 ^ n) (.par _ (divideF E n s)) m m' ∧
      √(normSq (2 ^ n) fun j => ⟪m' j⟫ - ⟪m j⟫ / ((√P : ℝ) : ℂ)) ≤ (4 * ρ + 12 * u) + 2 * η * √((2 ^ n : Nat) : ℝ) := by
  have hT : 0 < √P := Real.sqrt_pos.2 hP0
  have hnorm : ‖vec n fun j => ⟪m j⟫‖ = √P := by rw [← sqrt_normSq hn, hP]
  refine ⟨_, elementwise_runs (pow64 hn) _ m, ?_⟩
  rw [sqrt_normSq hn]
  have key := vec_bound hn (ψ := fun j => ⟪m j⟫ / ((√P : ℝ) : ℂ)) (φ := fun _ => 0)
    (d := fun j => ⟪if InState (2 ^ n) j then overC E (m j) (E.sqrt s) else m j⟫ - ⟪m j⟫ / ((√P : ℝ) : ℂ))
    (C := 4 * ρ + 12 * u) (D := 2 * η) (by positivity) (by positivity) (fun j hj => by
      rw [if_pos (show InState (2 ^ n) j from hj), norm_zero, add_zero]
      exact overC_err hD hu0 hu hP0 hPΩ hρ0 hρ hs (hm j hj) (by rw [← hnorm]; exact amp_le_norm (fun j => ⟪m j⟫) hj))
  refine key.trans_eq ?_
  have e : (fun j => ⟪m j⟫ / ((√P : ℝ) : ℂ)) = fun j => (((√P)⁻¹ : ℝ) : ℂ) * ⟪m j⟫ := by
    funext j; rw [div_eq_inv_mul]; push_cast; rfl
  rw [e, vec_smul, norm_smul, hnorm, vec_zero, norm_zero, add_zero, Complex.norm_real, Real.norm_of_nonneg (by positivity),
    inv_mul_cancel₀ hT.ne', mul_one]

/-- `multiply_coef` -/
theorem multiplyCoefF_err (A : Accurate lib val u w η Ω) (hu : u ≤ 1 / 64) (hη : η ≤ 1 / 64) {n : Nat} (hn : n ≤ 63) {m : U64 → Cx F}
    (hm : ∀ j : U64, j.toNat < 2 ^ n → ‖⟪m j⟫‖ ≤ 4) {c : ℂ} (hc : ‖c‖ ≤ 1) :
    ∃ m', DRuns (2 ^ n) (multiplyCoefF lib 1 n c) m m' ∧
      √(normSq (2 ^ n) fun j => ⟪m' j⟫ - c * ⟪m j⟫) ≤ 9 * (u + η) * √(normSq (2 ^ n) fun j => ⟪m j⟫) + 5 * η * √((2 ^ n : Nat) : ℝ) := by
  have hu0 := A.u_nonneg
  have hη0 := A.eta_nonneg
  unfold multiplyCoefF
  rw [Nat.one_mul]
  refine ⟨_, elementwise_runs (pow64 hn) _ m, ?_⟩
  rw [sqrt_normSq hn, sqrt_normSq hn]
  have key := vec_bound hn (ψ := fun j => ⟪m j⟫) (φ := fun _ => 0)
    (d := fun j => ⟪if InState (2 ^ n) j then m j * castC lib c else m j⟫ - c * ⟪m j⟫)
    (C := 9 * (u + η)) (D := 5 * η) (by positivity) (by positivity) (fun j hj => by
      rw [if_pos (show InState (2 ^ n) j from hj), norm_zero, add_zero, mul_comm c]
      refine (mul_coef A hu hη (castC_near A hc) hc (by linarith) (by linarith [hm j hj])).trans ?_
      have := norm_nonneg ⟪m j⟫
      nlinarith)
  rw [vec_zero, norm_zero, add_zero] at key
  exact key

/-- the kernel of `add_state_vector_with_coef` writes `a + c * b` -/
theorem addWithCoefF_runs {n n' : Nat} (hn : n ≤ 63) (hnn : n ≤ n') (lib : FloatLib F) (c : ℂ) (ψ φ : U64 → Cx F) :
    AddsWithCoefF lib n n' c ψ φ (fun j => if InState (2 ^ n) j then ψ j + castC lib c * φ j else ψ j) := by
  have hd := pow64 hn
  have hle : 2 ^ n ≤ 2 ^ n' := Nat.pow_le_pow_right (by omega) hnn
  apply runs_of_shared _ _ _ _ (fun i p => p = (false, BitVec.ofNat 64 i.val)) (fun p => p.1 = true ∧ p.2.toNat < 2 ^ n)
  · rintro i j a rfl h
    have := congrArg BitVec.toNat (Prod.ext_iff.1 h).2
    simp only [ofNat_fin hd] at this
    exact Fin.ext this
  · rintro i a rfl ⟨h, -⟩; cases h
  · rintro i a rfl
    show (BitVec.ofNat 64 i.val).toNat < 2 ^ n
    rw [ofNat_fin hd]; exact i.isLt
  · rintro ⟨a, j⟩ ⟨h, h'⟩
    dsimp only at h h' ⊢
    subst h
    show j.toNat < 2 ^ n'
    omega
  · intro i
    refine ⟨.inl rfl, fun _ => ⟨.inr ⟨rfl, ?_⟩, fun _ => ⟨rfl, trivial⟩⟩⟩
    show (BitVec.ofNat 64 i.val).toNat < 2 ^ n
    rw [ofNat_fin hd]; exact i.isLt
  · rintro i a rfl
    have hin : InState (2 ^ n) (BitVec.ofNat 64 i.val) := by
      show (BitVec.ofNat 64 i.val).toNat < 2 ^ n
      rw [ofNat_fin hd]; exact i.isLt
    show (if InState (2 ^ n) (BitVec.ofNat 64 i.val) then _ else _) = Function.update (twoBuffers ψ φ)
      (false, BitVec.ofNat 64 i.val) (ψ (BitVec.ofNat 64 i.val) + castC lib c * φ (BitVec.ofNat 64 i.val)) (false, BitVec.ofNat 64 i.val)
    rw [if_pos hin, Function.update_self]
  · rintro ⟨a, j⟩ ha
    cases a
    · show (if InState (2 ^ n) j then _ else _) = ψ j
      rw [if_neg]
      intro h
      exact ha ⟨j.toNat, h⟩ (by simp)
    · rfl

/-- `add_state_vector_with_coef` -/
theorem addWithCoefF_err (A : Accurate lib val u w η Ω) (hu : u ≤ 1 / 64) (hη : η ≤ 1 / 64) {n n' : Nat} (hn : n ≤ 63) (hnn : n ≤ n')
    {m φ : U64 → Cx F} (hm : ∀ j : U64, j.toNat < 2 ^ n → ‖⟪m j⟫‖ ≤ 4) (hφ : ∀ j : U64, j.toNat < 2 ^ n → ‖⟪φ j⟫‖ ≤ 4) {c : ℂ} (hc : ‖c‖ ≤ 1) :
    ∃ m', AddsWithCoefF lib n n' c m φ m' ∧ √(normSq (2 ^ n) fun j => ⟪m' j⟫ - (⟪m j⟫ + c * ⟪φ j⟫)) ≤
      12 * (u + η) * (√(normSq (2 ^ n) fun j => ⟪m j⟫) + √(normSq (2 ^ n) fun j => ⟪φ j⟫)) + 6 * η * √((2 ^ n : Nat) : ℝ) := by
  have hu0 := A.u_nonneg
  have hη0 := A.eta_nonneg
  refine ⟨_, addWithCoefF_runs hn hnn lib c m φ, ?_⟩
  rw [sqrt_normSq hn, sqrt_normSq hn, sqrt_normSq hn]
  refine vec_bound hn (by positivity) (by positivity) (fun j hj => ?_)
  rw [if_pos (show InState (2 ^ n) j from hj)]
  have h1 := coef_mul A hu hη (castC_near A hc) hc (by linarith) (show ‖⟪φ j⟫‖ ≤ 12 by linarith [hφ j hj])
  have na := norm_nonneg ⟪m j⟫
  have nb := norm_nonneg ⟪φ j⟫
  have hma := hm j hj
  have hmb := hφ j hj
  have nc : ‖c * ⟪φ j⟫‖ ≤ ‖⟪φ j⟫‖ := by rw [norm_mul]; nlinarith
  have hb : (2 * (u + η) + 7 * u) * ‖⟪φ j⟫‖ + 5 * η ≤ 3 / 16 * ‖⟪φ j⟫‖ + 5 * η := by nlinarith
  have s := sum_terms A (p := m j) (P := ⟪m j⟫) (ep := 0) (by simp) h1 (by nlinarith)
  have h2 : u * (‖⟪m j⟫‖ + ‖c * ⟪φ j⟫‖ + 0 + ((2 * (u + η) + 7 * u) * ‖⟪φ j⟫‖ + 5 * η)) ≤ u * (‖⟪m j⟫‖ + 19 / 16 * ‖⟪φ j⟫‖ + 5 * η) :=
    mul_le_mul_of_nonneg_left (by linarith) hu0
  have h3 : u * η ≤ 1 / 64 * η := mul_le_mul_of_nonneg_right hu hη0
  have p1 : 0 ≤ u * ‖⟪m j⟫‖ := by positivity
  have p2 : 0 ≤ u * ‖⟪φ j⟫‖ := by positivity
  have p3 : 0 ≤ η * ‖⟪m j⟫‖ := by positivity
  have p4 : 0 ≤ η * ‖⟪φ j⟫‖ := by positivity
  nlinarith

end

/-! ## the exact models -/

theorem divideF_exact (n : Nat) (s : ℝ) :
    (divideF exactDivLib n s : Pool (Fin (2 ^ n)) U64 ℂ) = elementwise (2 ^ n) fun _ a => a / ((√s : ℝ) : ℂ) := by
  unfold divideF
  congr 1
  funext _ a
  apply Complex.ext
  · exact (Complex.div_ofReal_re a _).symm
  · exact (Complex.div_ofReal_im a _).symm

theorem squaredNormF_exact {n : Nat} (hn : n ≤ 63) (ψ : U64 → ℂ) (r : Res ℝ) : SquaredNormF n ψ r ↔ r = .ok (normSq (2 ^ n) ψ) := by
  unfold SquaredNormF
  rw [show (readSqF (F := ℝ) (2 ^ n) ψ) = readSq (2 ^ n) ψ from funext fun i => readSqF_exact _ _ i]
  exact rangeReduction_exact' (squaredNorm_eq hn ψ) r

/-- in exact arithmetic `NormalizesF` is `Normalizes` -/
theorem normalizesF_exact {n : Nat} (hn : n ≤ 63) {ψ ψ' : U64 → ℂ} (h0 : normSq (2 ^ n) ψ ≠ 0) :
    NormalizesF exactDivLib n ψ ψ' ↔ Normalizes n ψ ψ' := by
  have hsq := squaredNorm_eq hn ψ
  have hpos : √(normSq (2 ^ n) ψ) ≠ 0 := (Real.sqrt_pos.2 (lt_of_le_of_ne (normSq_nonneg' _ _) h0.symm)).ne'
  have hdev : normalizeDev n ψ = .ok (.par (2 ^ n) (elementwise (2 ^ n) fun _ a => a / ((√(normSq (2 ^ n) ψ) : ℝ) : ℂ))) := by
    unfold normalizeDev
    rw [hsq, ok_bind]
    dsimp only
    rw [if_neg hpos]
    rfl
  constructor
  · rintro ⟨s, hs, hr⟩
    rw [squaredNormF_exact hn] at hs
    cases hs
    rw [divideF_exact] at hr
    exact ⟨_, hdev, hr⟩
  · rintro ⟨dev, hd, hr⟩
    rw [hdev] at hd
    cases hd
    refine ⟨_, (squaredNormF_exact hn ψ _).2 rfl, ?_⟩
    rw [divideF_exact]
    exact hr

theorem multiplyCoefF_exact (B n : Nat) (c : ℂ) : (multiplyCoefF exactLib B n c : Device ℂ) = multiplyCoef B n c := rfl

theorem addsWithCoefF_exact (n n' : Nat) (c : ℂ) (ψ φ ψ' : U64 → ℂ) :
    AddsWithCoefF exactLib n n' c ψ φ ψ' ↔ AddsWithCoef n n' c ψ φ ψ' := Iff.rfl

end Verif.Proofs
