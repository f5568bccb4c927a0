import Verif.Model.GroundState
import Verif.Proofs.Vec
import Verif.Spec.GroundState
import Mathlib.Algebra.QuadraticDiscriminant
import Mathlib.Analysis.SpecificLimits.Basic

/-! # The power method -/

namespace Verif.Proofs
open Verif Verif.Spec Verif.Model
attribute [-simp] BitVec.getLsbD_eq_getElem

/-! ## log-convex sequences -/

theorem logConvex_ratio {a : Nat → ℝ} (h0 : ∀ j, 0 ≤ a j) (h : ∀ j, a (j + 1) ^ 2 ≤ a j * a (j + 2)) (j : Nat) :
    a (j + 1) * a (j + 2) ≤ a j * a (j + 3) := by
  rcases (mul_nonneg (h0 (j + 1)) (h0 (j + 2))).lt_or_eq with hp | hz
  · have h1 := mul_le_mul (h j) (h (j + 1)) (sq_nonneg _) (mul_nonneg (h0 j) (h0 (j + 2)))
    have h2 : (a (j + 1) * a (j + 2)) * (a (j + 1) * a (j + 2)) ≤ (a j * a (j + 3)) * (a (j + 1) * a (j + 2)) := by
      calc _ = a (j + 1) ^ 2 * a (j + 1 + 1) ^ 2 := by ring
        _ ≤ _ := h1
        _ = _ := by ring
    exact le_of_mul_le_mul_right h2 hp
  · rw [← hz]; exact mul_nonneg (h0 _) (h0 _)

theorem logConvex_pow {a : Nat → ℝ} (h0 : ∀ j, 0 ≤ a j) (h : ∀ j, a (j + 1) ^ 2 ≤ a j * a (j + 2)) (N : Nat) :
    a N ^ (N + 1) ≤ a 0 * a (N + 1) ^ N := by
  induction N with
  | zero => simp
  | succ N ih =>
    rcases (h0 (N + 1)).lt_or_eq with hp | hz
    · have h1 : (a (N + 1) ^ 2) ^ (N + 1) ≤ (a N * a (N + 2)) ^ (N + 1) := pow_le_pow_left₀ (sq_nonneg _) (h N) _
      have h2 : a (N + 1) ^ N * a (N + 1) ^ (N + 1 + 1) ≤ a (N + 1) ^ N * (a 0 * a (N + 1 + 1) ^ (N + 1)) := by
        calc _ = (a (N + 1) ^ 2) ^ (N + 1) := by rw [← pow_mul, ← pow_add]; congr 1; ring
          _ ≤ (a N * a (N + 2)) ^ (N + 1) := h1
          _ = a N ^ (N + 1) * a (N + 2) ^ (N + 1) := mul_pow _ _ _
          _ ≤ (a 0 * a (N + 1) ^ N) * a (N + 2) ^ (N + 1) := mul_le_mul_of_nonneg_right ih (pow_nonneg (h0 _) _)
          _ = _ := by ring
      exact le_of_mul_le_mul_left h2 (pow_pos hp N)
    · rw [← hz, zero_pow (by omega)]
      exact mul_nonneg (h0 0) (pow_nonneg (h0 _) _)

/-! ## symmetric positive maps -/

section
variable {E : Type*} [NormedAddCommGroup E] [InnerProductSpace ℂ E]

local notation "⟪" x ", " y "⟫" => Inner.inner ℂ x y

theorem re_inner_symm (x y : E) : (⟪x, y⟫).re = (⟪y, x⟫).re := by
  rw [← inner_conj_symm x y, Complex.conj_re]

/-- Cauchy-Schwarz for a positive symmetric map -/
theorem psd_cauchy {C : E →ₗ[ℂ] E} (hC : C.IsSymmetric) (hp : ∀ x, 0 ≤ (⟪x, C x⟫).re) (y z : E) :
    (⟪y, C z⟫).re ^ 2 ≤ (⟪y, C y⟫).re * (⟪z, C z⟫).re := by
  have hq : ∀ t : ℝ, 0 ≤ (⟪z, C z⟫).re * (t * t) + 2 * (⟪y, C z⟫).re * t + (⟪y, C y⟫).re := by
    intro t
    have h := hp (y + (t : ℂ) • z)
    have e : (⟪y + (t : ℂ) • z, C (y + (t : ℂ) • z)⟫).re =
        (⟪z, C z⟫).re * (t * t) + 2 * (⟪y, C z⟫).re * t + (⟪y, C y⟫).re := by
      have e1 : (⟪z, C y⟫).re = (⟪y, C z⟫).re := by rw [re_inner_symm, hC]
      rw [map_add, map_smul, _root_.inner_add_left, _root_.inner_add_right, _root_.inner_add_right, _root_.inner_smul_left, _root_.inner_smul_left, _root_.inner_smul_right,
        _root_.inner_smul_right, Complex.conj_ofReal, ← mul_assoc, ← Complex.ofReal_mul]
      simp only [Complex.add_re, Complex.re_ofReal_mul, e1]
      ring
    rw [e] at h; exact h
  have := discrim_le_zero hq
  unfold discrim at this
  nlinarith

/-- the moments `⟪x, B^j x⟫` -/
noncomputable def moment (B : E →ₗ[ℂ] E) (x : E) (j : Nat) : ℝ := (⟪x, (B ^ j) x⟫).re

theorem pow_symm {B : E →ₗ[ℂ] E} (hB : B.IsSymmetric) (k : Nat) (x y : E) : ⟪(B ^ k) x, y⟫ = ⟪x, (B ^ k) y⟫ := hB.pow k x y

theorem moment_split {B : E →ₗ[ℂ] E} (hB : B.IsSymmetric) (x : E) (k e : Nat) :
    moment B x (2 * k + e) = (⟪(B ^ k) x, (B ^ e) ((B ^ k) x)⟫).re := by
  unfold moment
  rw [pow_symm hB, ← Module.End.mul_apply, ← Module.End.mul_apply, ← pow_add, ← pow_add]
  congr 4; omega

theorem moment_even {B : E →ₗ[ℂ] E} (hB : B.IsSymmetric) (x : E) (k : Nat) : moment B x (2 * k) = ‖(B ^ k) x‖ ^ 2 := by
  have := moment_split hB x k 0
  rw [Nat.add_zero, pow_zero, Module.End.one_apply] at this
  rw [this]
  exact inner_self_eq_norm_sq (𝕜 := ℂ) _

theorem moment_nonneg {B : E →ₗ[ℂ] E} (hB : B.IsSymmetric) (hp : ∀ x, 0 ≤ (⟪x, B x⟫).re) (x : E) (j : Nat) : 0 ≤ moment B x j := by
  rcases Nat.even_or_odd' j with ⟨k, rfl | rfl⟩
  · rw [moment_even hB]; positivity
  · rw [moment_split hB, pow_one]; exact hp _

theorem moment_logConvex {B : E →ₗ[ℂ] E} (hB : B.IsSymmetric) (hp : ∀ x, 0 ≤ (⟪x, B x⟫).re) (x : E) (j : Nat) :
    moment B x (j + 1) ^ 2 ≤ moment B x j * moment B x (j + 2) := by
  have key : ∀ k e, (B ^ e).IsSymmetric → (∀ x, 0 ≤ (⟪x, (B ^ e) x⟫).re) →
      moment B x (2 * k + e + 1) ^ 2 ≤ moment B x (2 * k + e) * moment B x (2 * k + e + 2) := by
    intro k e hs hpe
    have h := psd_cauchy hs hpe ((B ^ k) x) (B ((B ^ k) x))
    have e1 : moment B x (2 * k + e + 1) = (⟪(B ^ k) x, (B ^ e) (B ((B ^ k) x))⟫).re := by
      rw [show 2 * k + e + 1 = 2 * k + (e + 1) by ring, moment_split hB, pow_succ]; rfl
    have e2 : moment B x (2 * k + e + 2) = (⟪B ((B ^ k) x), (B ^ e) (B ((B ^ k) x))⟫).re := by
      rw [show 2 * k + e + 2 = 2 * (k + 1) + e by ring, moment_split hB, pow_succ']; rfl
    rw [e1, e2, moment_split hB]; exact h
  rcases Nat.even_or_odd' j with ⟨k, rfl | rfl⟩
  · exact key k 0 (hB.pow 0) fun y => by
      rw [pow_zero, Module.End.one_apply]
      have := inner_self_nonneg (𝕜 := ℂ) (x := y)
      exact this
  · exact key k 1 (hB.pow 1) fun y => by rw [pow_one]; exact hp y

/-- one more application of `B` does not lower the quotient -/
theorem rayleigh_mono {B : E →ₗ[ℂ] E} (hB : B.IsSymmetric) (hp : ∀ x, 0 ≤ (⟪x, B x⟫).re) (x : E) :
    (⟪x, B x⟫).re * ‖B x‖ ^ 2 ≤ (⟪B x, B (B x)⟫).re * ‖x‖ ^ 2 := by
  have h := logConvex_ratio (moment_nonneg hB hp x) (moment_logConvex hB hp x) 0
  have e0 : moment B x 0 = ‖x‖ ^ 2 := by have := moment_even hB x 0; simpa using this
  have e1 : moment B x 1 = (⟪x, B x⟫).re := by unfold moment; rw [pow_one]
  have e2 : moment B x 2 = ‖B x‖ ^ 2 := by have := moment_even hB x 1; simpa using this
  have e3 : moment B x 3 = (⟪B x, B (B x)⟫).re := by have := moment_split hB x 1 1; simpa using this
  rw [zero_add, zero_add, zero_add, e0, e1, e2, e3] at h
  linarith

/-- the overlap with an eigenvector bounds the quotient from below -/
theorem rayleigh_overlap {B : E →ₗ[ℂ] E} (hB : B.IsSymmetric) (hp : ∀ x, 0 ≤ (⟪x, B x⟫).re) (x v : E) (b : ℝ) (hv : B v = (b : ℂ) • v)
    (k : Nat) (hk : (B ^ k) x ≠ 0) :
    ‖⟪v, x⟫‖ ^ 2 * b ^ (2 * k) ≤ ‖v‖ ^ 2 * ‖x‖ ^ 2 * ((⟪(B ^ k) x, B ((B ^ k) x)⟫).re / ‖(B ^ k) x‖ ^ 2) ^ (2 * k) := by
  have hpow : ∀ k : Nat, (B ^ k) v = ((b : ℂ) ^ k) • v := by
    intro k
    induction k with
    | zero => simp
    | succ k ih => rw [pow_succ', Module.End.mul_apply, ih, map_smul, hv, smul_smul, pow_succ]
  have h1 : ‖⟪v, x⟫‖ ^ 2 * b ^ (2 * k) = ‖⟪v, (B ^ k) x⟫‖ ^ 2 := by
    rw [← pow_symm hB, hpow, inner_smul_left, norm_mul, mul_pow, ← Complex.ofReal_pow, Complex.conj_ofReal, Complex.norm_real,
      Real.norm_eq_abs, sq_abs, ← pow_mul, mul_comm k 2]; ring
  have h2 : ‖⟪v, (B ^ k) x⟫‖ ^ 2 ≤ ‖v‖ ^ 2 * ‖(B ^ k) x‖ ^ 2 := by
    rw [← mul_pow]; exact pow_le_pow_left₀ (norm_nonneg _) (norm_inner_le_norm _ _) 2
  have ha : 0 < ‖(B ^ k) x‖ ^ 2 := by positivity
  have h3 := logConvex_pow (moment_nonneg hB hp x) (moment_logConvex hB hp x) (2 * k)
  have e0 : moment B x 0 = ‖x‖ ^ 2 := by have := moment_even hB x 0; simpa using this
  have e1 : moment B x (2 * k + 1) = (⟪(B ^ k) x, B ((B ^ k) x)⟫).re := by rw [moment_split hB, pow_one]
  rw [moment_even hB, e0, e1] at h3
  have h4 : ‖(B ^ k) x‖ ^ 2 ≤ ‖x‖ ^ 2 * ((⟪(B ^ k) x, B ((B ^ k) x)⟫).re / ‖(B ^ k) x‖ ^ 2) ^ (2 * k) := by
    rw [div_pow, ← mul_div_assoc, le_div_iff₀ (pow_pos ha _), ← pow_succ']
    exact h3
  rw [h1]
  calc _ ≤ ‖v‖ ^ 2 * ‖(B ^ k) x‖ ^ 2 := h2
    _ ≤ ‖v‖ ^ 2 * (‖x‖ ^ 2 * _) := mul_le_mul_of_nonneg_left h4 (by positivity)
    _ = _ := by ring

end

/-! ## the loop -/

/-- the linear map `A - μ` -/
noncomputable def shiftLin (n : Nat) (ts : List PauliOp) (μ : ℂ) : Vect n →ₗ[ℂ] Vect n := opLin n ts - μ • LinearMap.id

theorem shiftLin_apply (n : Nat) (ts : List PauliOp) (μ : ℂ) (x : Vect n) : shiftLin n ts μ x = opLin n ts x - μ • x := rfl

theorem addsWithCoef_iff {n : Nat} (hn : n ≤ 63) (c : ℂ) (ψ φ χ : U64 → ℂ) :
    AddsWithCoef n n c ψ φ χ ↔ χ = onState (2 ^ n) (fun v j => v j + c * φ j) ψ := by
  have h := addWithCoef_runs hn (le_refl n) c ψ φ
  constructor
  · intro h'
    have e := Runs.unique h' h
    funext j
    exact congrFun e (false, j)
  · rintro rfl; exact h

theorem shifts_iff {o : Op} {n : Nat} (hn : n ≤ 63) (hx : ∀ p ∈ o.terms, p.x.toNat < 2 ^ n) (μ : ℂ) (ψ χ : U64 → ℂ) :
    o.Shifts n μ ψ χ ↔ χ = onState (2 ^ n) (shiftedBy (OpAct o.terms) μ) ψ := by
  have ha := opApplies_spec o (show n ≤ 64 by omega) hx ψ
  have e : onState (2 ^ n) (fun v j => v j + -μ * ψ j) (onState (2 ^ n) (OpAct o.terms) ψ) =
      onState (2 ^ n) (shiftedBy (OpAct o.terms) μ) ψ := by
    funext j
    unfold onState shiftedBy
    dsimp only
    split
    · ring
    · rfl
  constructor
  · rintro ⟨φ, h1, h2⟩
    obtain rfl := opApplies_unique h1 ha
    rw [(addsWithCoef_iff hn _ _ _ _).1 h2, e]
  · rintro rfl
    exact ⟨_, ha, (addsWithCoef_iff hn _ _ _ _).2 e.symm⟩

theorem vec_shiftedBy {n : Nat} (hn : n ≤ 63) {ts : List PauliOp} (hx : ∀ p ∈ ts, p.x.toNat < 2 ^ n) (μ : ℂ) (ψ : U64 → ℂ) :
    vec n (shiftedBy (OpAct ts) μ ψ) = shiftLin n ts μ (vec n ψ) := by
  rw [shiftLin_apply, ← vec_opAct hn hx]
  ext i; simp [shiftedBy]

theorem vec_shiftedBy_iter {n : Nat} (hn : n ≤ 63) {ts : List PauliOp} (hx : ∀ p ∈ ts, p.x.toNat < 2 ^ n) (μ : ℂ) (ψ : U64 → ℂ) (k : Nat) :
    vec n ((shiftedBy (OpAct ts) μ)^[k] ψ) = (shiftLin n ts μ ^ k) (vec n ψ) := by
  induction k with
  | zero => rfl
  | succ k ih => rw [Function.iterate_succ_apply', vec_shiftedBy hn hx, ih, pow_succ', Module.End.mul_apply]

theorem vec_normalizes {n : Nat} (hn : n ≤ 63) {χ ψ' : U64 → ℂ} (h0 : vec n χ ≠ 0) (h : Normalizes n χ ψ') :
    vec n ψ' = ((‖vec n χ‖⁻¹ : ℝ) : ℂ) • vec n χ := by
  have h1 : normSq (2 ^ n) χ ≠ 0 := fun e => h0 ((vec_eq_zero hn χ).2 e)
  rw [Normalizes.unique h (normalizes hn h1)]
  have e : Real.sqrt (normSq (2 ^ n) χ) = ‖vec n χ‖ := by rw [normSq_vec hn, Real.sqrt_sq (norm_nonneg _)]
  rw [e, ← vec_smul]
  apply vec_congr hn
  intro j hj
  rw [if_pos (show InState (2 ^ n) j from hj)]
  push_cast
  rw [div_eq_mul_inv, mul_comm]

/-- the loop has exactly one outcome -/
theorem powerLoop_spec {o : Op} {n : Nat} (hn : n ≤ 63) (hx : ∀ p ∈ o.terms, p.x.toNat < 2 ^ n) (μ : ℂ) (k : Nat) (ψ : U64 → ℂ) :
    ((k = 0 ∨ (shiftLin n o.terms μ ^ k) (vec n ψ) ≠ 0) → ∃ φ, (∀ r, o.PowerLoop n μ k ψ r ↔ r = .ok φ) ∧ (k = 0 → φ = ψ) ∧
      (0 < k → vec n φ = ((‖(shiftLin n o.terms μ ^ k) (vec n ψ)‖⁻¹ : ℝ) : ℂ) • (shiftLin n o.terms μ ^ k) (vec n ψ))) ∧
    (0 < k → (shiftLin n o.terms μ ^ k) (vec n ψ) = 0 → ∀ r, o.PowerLoop n μ k ψ r ↔ r = .error (.ub "division by zero")) := by
  induction k generalizing ψ with
  | zero =>
    refine ⟨fun _ => ⟨ψ, fun r => ⟨?_, ?_⟩, fun _ => rfl, fun h => absurd h (lt_irrefl 0)⟩, fun h => absurd h (lt_irrefl 0)⟩
    · intro h; cases h; rfl
    · rintro rfl; exact .done ψ
  | succ k ih =>
    set S := shiftLin n o.terms μ with hS
    let χ := onState (2 ^ n) (shiftedBy (OpAct o.terms) μ) ψ
    have hχ : vec n χ = S (vec n ψ) := by rw [vec_onState hn, vec_shiftedBy hn hx]
    have hpow : ∀ x : Vect n, (S ^ (k + 1)) x = (S ^ k) (S x) := fun x => by rw [pow_succ, Module.End.mul_apply]
    by_cases h0 : vec n χ = 0
    · have hz : normSq (2 ^ n) χ = 0 := (vec_eq_zero hn χ).1 h0
      have hnan := normalizes_zero hn hz
      have hS0 : (S ^ (k + 1)) (vec n ψ) = 0 := by rw [hpow, ← hχ, h0, map_zero]
      refine ⟨fun h => absurd hS0 (h.resolve_left (by omega)), fun _ _ r => ⟨?_, ?_⟩⟩
      · intro h
        cases h with
        | step _ _ χ' ψ' _ h1 h2 _ =>
          obtain rfl := (shifts_iff hn hx μ ψ χ').1 h1
          obtain ⟨d, hd, _⟩ := h2
          change normalizeDev n χ = _ at hd
          rw [hnan] at hd; cases hd
        | nan _ _ χ' e h1 h2 =>
          obtain rfl := (shifts_iff hn hx μ ψ χ').1 h1
          change normalizeDev n χ = _ at h2
          rw [hnan] at h2; cases h2; rfl
      · rintro rfl
        exact .nan k ψ χ _ ((shifts_iff hn hx μ ψ χ).2 rfl) hnan
    · have hnz : normSq (2 ^ n) χ ≠ 0 := fun e => h0 ((vec_eq_zero hn χ).2 e)
      have hnorm := normalizes hn hnz
      set ψ' : U64 → ℂ := fun j => if InState (2 ^ n) j then χ j / (Real.sqrt (normSq (2 ^ n) χ) : ℂ) else χ j with hψ'
      have hvec := vec_normalizes hn h0 hnorm
      have hc : ((‖vec n χ‖⁻¹ : ℝ) : ℂ) ≠ 0 := by
        rw [Complex.ofReal_ne_zero]; exact inv_ne_zero (norm_ne_zero_iff.2 h0)
      have hk : (S ^ k) (vec n ψ') = ((‖vec n χ‖⁻¹ : ℝ) : ℂ) • (S ^ (k + 1)) (vec n ψ) := by
        rw [hvec, map_smul, hpow, hχ]
      have hstep : ∀ r, o.PowerLoop n μ (k + 1) ψ r ↔ o.PowerLoop n μ k ψ' r := by
        intro r
        constructor
        · intro h
          cases h with
          | step _ _ χ' ψ'' _ h1 h2 h3 =>
            obtain rfl := (shifts_iff hn hx μ ψ χ').1 h1
            obtain rfl := Normalizes.unique h2 hnorm
            exact h3
          | nan _ _ χ' e h1 h2 =>
            obtain rfl := (shifts_iff hn hx μ ψ χ').1 h1
            obtain ⟨d, hd, _⟩ := hnorm
            change normalizeDev n χ = _ at h2
            rw [hd] at h2; cases h2
        · intro h
          exact .step k ψ χ ψ' r ((shifts_iff hn hx μ ψ χ).2 rfl) hnorm h
      obtain ⟨ih1, ih2⟩ := ih ψ'
      refine ⟨fun h => ?_, fun _ hz r => ?_⟩
      · have hne : (S ^ (k + 1)) (vec n ψ) ≠ 0 := h.resolve_left (by omega)
        obtain ⟨φ, h1, h2, h3⟩ := ih1 (Or.inr (by rw [hk]; exact smul_ne_zero hc hne))
        refine ⟨φ, fun r => by rw [hstep, h1], fun h => absurd h (by omega), fun _ => ?_⟩
        rcases Nat.eq_zero_or_pos k with rfl | hkp
        · rw [h2 rfl, hvec, hχ, zero_add, pow_one]
        · rw [h3 hkp, hk, smul_smul]
          congr 1
          rw [norm_smul, mul_inv, ← Complex.ofReal_mul, Complex.norm_real, Real.norm_eq_abs, abs_of_nonneg (inv_nonneg.2 (norm_nonneg _)),
            inv_inv]
          congr 1
          have : ‖vec n χ‖ ≠ 0 := norm_ne_zero_iff.2 h0
          field_simp
      · rw [hstep]
        rcases Nat.eq_zero_or_pos k with rfl | hkp
        · exfalso
          rw [zero_add, pow_one, ← hχ] at hz
          exact h0 hz
        · exact ih2 hkp (by rw [hk, hz, smul_zero]) r

/-! ## energies -/

theorem shiftLin_pow_zero {n : Nat} (hn : n ≤ 63) {ts : List PauliOp} (hx : ∀ p ∈ ts, p.x.toNat < 2 ^ n) (hc : ∀ p ∈ ts, p.coef.im = 0)
    (μ : ℝ) {k : Nat} (hk : 0 < k) (x : Vect n) : (shiftLin n ts μ ^ k) x = 0 ↔ shiftLin n ts μ x = 0 := by
  have hS : (shiftLin n ts μ).IsSymmetric := by
    apply LinearMap.IsSymmetric.sub (opLin_symmetric hn hx hc)
    apply LinearMap.IsSymmetric.smul (Complex.conj_ofReal μ)
    exact LinearMap.IsSymmetric.id
  constructor
  · intro h
    induction k with
    | zero => omega
    | succ k ih =>
      rcases Nat.eq_zero_or_pos k with rfl | hk'
      · simpa using h
      · refine ih hk' ?_
        obtain ⟨m, rfl⟩ : ∃ m, k = m + 1 := ⟨k - 1, by omega⟩
        have e : ∀ y, (shiftLin n ts (μ : ℂ) ^ (m + 1 + 1)) y = shiftLin n ts μ ((shiftLin n ts (μ : ℂ) ^ (m + 1)) y) := fun y => by
          rw [pow_succ', Module.End.mul_apply]
        have e' : ∀ y, (shiftLin n ts (μ : ℂ) ^ (m + 1)) y = shiftLin n ts μ ((shiftLin n ts (μ : ℂ) ^ m) y) := fun y => by
          rw [pow_succ', Module.End.mul_apply]
        rw [e] at h
        have : Inner.inner ℂ ((shiftLin n ts (μ : ℂ) ^ (m + 1)) x) ((shiftLin n ts (μ : ℂ) ^ (m + 1)) x) = 0 := by
          conv_lhs => arg 2; rw [e']
          rw [hS, h, inner_zero_right]
        exact inner_self_eq_zero.1 this
  · intro h
    obtain ⟨m, rfl⟩ : ∃ m, k = m + 1 := ⟨k - 1, by omega⟩
    rw [pow_succ, Module.End.mul_apply, h, map_zero]

/-- `μ - A`, the operator whose powers the method applies up to sign -/
noncomputable def gapLin (n : Nat) (ts : List PauliOp) (μ : ℂ) : Vect n →ₗ[ℂ] Vect n := -shiftLin n ts μ

theorem gapLin_apply (n : Nat) (ts : List PauliOp) (μ : ℂ) (x : Vect n) : gapLin n ts μ x = μ • x - opLin n ts x := by
  unfold gapLin; rw [LinearMap.neg_apply, shiftLin_apply]; abel

theorem gapLin_symm {n : Nat} (hn : n ≤ 63) {ts : List PauliOp} (hx : ∀ p ∈ ts, p.x.toNat < 2 ^ n) (hc : ∀ p ∈ ts, p.coef.im = 0)
    (μ : ℝ) : (gapLin n ts μ).IsSymmetric := by
  have hS : (shiftLin n ts μ).IsSymmetric := by
    apply LinearMap.IsSymmetric.sub (opLin_symmetric hn hx hc)
    apply LinearMap.IsSymmetric.smul (Complex.conj_ofReal μ)
    exact LinearMap.IsSymmetric.id
  intro x y
  change Inner.inner ℂ (-shiftLin n ts μ x) y = Inner.inner ℂ x (-shiftLin n ts μ y)
  rw [inner_neg_left, inner_neg_right, hS]

theorem gapLin_pow {n : Nat} (ts : List PauliOp) (μ : ℂ) (k : Nat) (x : Vect n) :
    (shiftLin n ts μ ^ k) x = ((-1 : ℂ) ^ k) • (gapLin n ts μ ^ k) x := by
  induction k generalizing x with
  | zero => simp
  | succ k ih =>
    rw [pow_succ, Module.End.mul_apply, ih, pow_succ (gapLin n ts μ), Module.End.mul_apply, show gapLin n ts μ x = -shiftLin n ts μ x from rfl, map_neg, smul_neg,
      pow_succ]
    simp

/-- the energy of a vector in terms of the gap operator -/
theorem gap_energy {n : Nat} (ts : List PauliOp) (μ : ℝ) (x : Vect n) :
    (Inner.inner ℂ x (gapLin n ts μ x)).re = μ * ‖x‖ ^ 2 - (Inner.inner ℂ x (opLin n ts x)).re := by
  rw [gapLin_apply, _root_.inner_sub_right, _root_.inner_smul_right, Complex.sub_re, Complex.re_ofReal_mul]
  congr 2
  exact inner_self_eq_norm_sq (𝕜 := ℂ) x

/-- quotients that satisfy the bound of `rayleigh_overlap` approach the eigenvalue -/
theorem overlap_converges {C N q : ℝ} (hC : 0 < C) (hN : 0 ≤ N) (hq : 0 < q) {ε : ℝ} (hε : 0 < ε) :
    ∃ K : Nat, ∀ k ≥ K, ∀ s : ℝ, 0 ≤ s → C * q ^ (2 * k) ≤ N * s ^ (2 * k) → q - s < ε := by
  by_cases hq' : q < ε
  · exact ⟨0, fun k _ s hs _ => by linarith⟩
  have hr0 : 0 ≤ (q - ε) / q := div_nonneg (by linarith) hq.le
  have hr1 : (q - ε) / q < 1 := by rw [div_lt_one hq]; linarith
  obtain ⟨K, hK⟩ := exists_pow_lt_of_lt_one (show 0 < C / (N + 1) by positivity) hr1
  refine ⟨K, fun k hk s hs h => ?_⟩
  by_contra hcon
  have hs' : s ≤ q - ε := by linarith
  have h1 : s ^ (2 * k) ≤ (q - ε) ^ (2 * k) := pow_le_pow_left₀ hs hs' _
  have h2 : C * q ^ (2 * k) ≤ N * (q - ε) ^ (2 * k) := h.trans (mul_le_mul_of_nonneg_left h1 hN)
  have h3 : C ≤ N * ((q - ε) / q) ^ (2 * k) := by
    rw [div_pow, ← mul_div_assoc, le_div_iff₀ (by positivity)]; exact h2
  have h4 : ((q - ε) / q) ^ (2 * k) ≤ ((q - ε) / q) ^ K := pow_le_pow_of_le_one hr0 hr1.le (by omega)
  have h5 : (N + 1) * ((q - ε) / q) ^ K < C := by
    rw [lt_div_iff₀ (by linarith)] at hK; linarith
  have h6 : 0 ≤ ((q - ε) / q) ^ K := pow_nonneg hr0 _
  nlinarith [mul_le_mul_of_nonneg_left h4 hN]

end Verif.Proofs
