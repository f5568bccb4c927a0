import Verif.Proofs.FloatError
import Mathlib.Analysis.SpecialFunctions.Trigonometric.Bounds

/-! # Rounding errors of the gate coefficients and of their application -/

namespace Verif.Proofs
open Verif Verif.Spec Verif.Model
attribute [-simp] BitVec.getLsbD_eq_getElem

section
variable {F : Type} [Zero F] [One F] [Add F] [Sub F] [Mul F] [Neg F] {lib : FloatLib F} {val : F → ℝ} {u w η Ω : ℝ}

local notation "⟪" x "⟫" => cval val x

/-- `x` means `z` up to `δ` -/
def Near (val : F → ℝ) (x : Cx F) (z : ℂ) (δ : ℝ) : Prop := ‖cval val x - z‖ ≤ δ

omit [Zero F] [One F] [Add F] [Sub F] [Mul F] [Neg F] in
theorem Near.norm {x : Cx F} {z : ℂ} {δ : ℝ} (h : Near val x z δ) : ‖⟪x⟫‖ ≤ ‖z‖ + δ := by
  have := norm_add_le (⟪x⟫ - z) z
  rw [sub_add_cancel] at this
  unfold Near at h
  linarith

omit [Zero F] [One F] [Add F] [Sub F] [Mul F] [Neg F] in
theorem Near.mono {x : Cx F} {z : ℂ} {δ δ' : ℝ} (h : Near val x z δ) (hd : δ ≤ δ') : Near val x z δ' := le_trans h hd

omit [Zero F] [One F] [Add F] [Sub F] [Mul F] [Neg F] in
theorem Near.nonneg {x : Cx F} {z : ℂ} {δ : ℝ} (h : Near val x z δ) : 0 ≤ δ := le_trans (norm_nonneg _) h

omit [Zero F] [One F] [Add F] [Sub F] [Mul F] [Neg F] in
theorem Near.parts {x y : F} {a b δ : ℝ} (h1 : |val x - a| ≤ δ) (h2 : |val y - b| ≤ δ) : Near val ⟨x, y⟩ ⟨a, b⟩ (2 * δ) := by
  have := norm_le_parts (x := ⟪⟨x, y⟩⟫) (y := ⟨a, b⟩) h1 h2
  unfold Near; linarith

omit [Zero F] [One F] [Add F] [Sub F] [Mul F] [Neg F] in
theorem near_self {x : Cx F} {z : ℂ} (h : ⟪x⟫ = z) : Near val x z 0 := by
  unfold Near; rw [h, sub_self, norm_zero]

theorem Near.neg (A : Accurate lib val u w η Ω) {x : Cx F} {z : ℂ} {δ : ℝ} (h : Near val x z δ) : Near val (-x) (-z) δ := by
  unfold Near
  rw [cval_neg A, ← neg_sub', norm_neg]
  exact h

/-- product of two coefficients -/
theorem Near.mul (A : Accurate lib val u w η Ω) (hu : u ≤ 1 / 64) (hη : η ≤ 1 / 64) {x y : Cx F} {z t : ℂ} {δ₁ δ₂ : ℝ}
    (h1 : Near val x z δ₁) (h2 : Near val y t δ₂) (hz : ‖z‖ ≤ 1) (ht : ‖t‖ ≤ 1) (hd1 : δ₁ ≤ 1 / 4) (hd2 : δ₂ ≤ 1 / 4) :
    Near val (x * y) (z * t) (2 * δ₁ + 2 * δ₂ + 8 * (u + η)) := by
  have n1 := h1.norm
  have n2 := h2.norm
  have p1 := norm_nonneg ⟪x⟫
  have p2 := norm_nonneg ⟪y⟫
  have hxy : ‖⟪x⟫‖ * ‖⟪y⟫‖ ≤ 25 / 16 := by nlinarith
  have m := mul_err A hu hη x y (by linarith) (by linarith) (by linarith)
  have e : ⟪x * y⟫ - z * t = (⟪x * y⟫ - ⟪x⟫ * ⟪y⟫) + (⟪x⟫ - z) * ⟪y⟫ + z * (⟪y⟫ - t) := by ring
  have h3 : ‖⟪x * y⟫ - z * t‖ ≤ ‖⟪x * y⟫ - ⟪x⟫ * ⟪y⟫‖ + ‖⟪x⟫ - z‖ * ‖⟪y⟫‖ + ‖z‖ * ‖⟪y⟫ - t‖ := by
    rw [e, ← norm_mul, ← norm_mul]; exact norm_add₃_le
  have h4 : ‖⟪x⟫ - z‖ * ‖⟪y⟫‖ ≤ δ₁ * (5 / 4) := mul_le_mul h1 (by linarith) p2 h1.nonneg
  have h5 : ‖z‖ * ‖⟪y⟫ - t‖ ≤ 1 * δ₂ := mul_le_mul hz h2 (norm_nonneg _) (by norm_num)
  have h6 : u * (‖⟪x⟫‖ * ‖⟪y⟫‖) ≤ u * (25 / 16) := mul_le_mul_of_nonneg_left hxy A.u_nonneg
  have := h1.nonneg
  have := h2.nonneg
  have := A.eta_nonneg
  have := A.u_nonneg
  unfold Near
  linarith

/-- error of an approximate factor on an amplitude, given the rounding error of the operation -/
theorem apply_coef (hu0 : 0 ≤ u) {x a : Cx F} {r : Cx F} {z : ℂ} {δ : ℝ} (h : Near val x z δ) (hz : ‖z‖ ≤ 1) (hd : δ ≤ 1 / 4)
    (hr : ‖⟪r⟫ - ⟪x⟫ * ⟪a⟫‖ ≤ 5 * u * (‖⟪x⟫‖ * ‖⟪a⟫‖) + 5 * η) :
    ‖⟪r⟫ - z * ⟪a⟫‖ ≤ (δ + 7 * u) * ‖⟪a⟫‖ + 5 * η := by
  have n1 := h.norm
  have pa := norm_nonneg ⟪a⟫
  have e : ⟪r⟫ - z * ⟪a⟫ = (⟪r⟫ - ⟪x⟫ * ⟪a⟫) + (⟪x⟫ - z) * ⟪a⟫ := by ring
  have h3 : ‖⟪r⟫ - z * ⟪a⟫‖ ≤ ‖⟪r⟫ - ⟪x⟫ * ⟪a⟫‖ + ‖⟪x⟫ - z‖ * ‖⟪a⟫‖ := by
    rw [e, ← norm_mul]; exact norm_add_le _ _
  have h4 : ‖⟪x⟫ - z‖ * ‖⟪a⟫‖ ≤ δ * ‖⟪a⟫‖ := mul_le_mul_of_nonneg_right h pa
  have h5 : u * (‖⟪x⟫‖ * ‖⟪a⟫‖) ≤ u * (5 / 4 * ‖⟪a⟫‖) :=
    mul_le_mul_of_nonneg_left (mul_le_mul_of_nonneg_right (by linarith) pa) hu0
  have := mul_nonneg hu0 pa
  nlinarith

theorem coef_range {x a : Cx F} {z : ℂ} {δ : ℝ} (h : Near val x z δ) (hz : ‖z‖ ≤ 1) (hd : δ ≤ 1 / 4) (ha : ‖⟪a⟫‖ ≤ 12) :
    ‖⟪x⟫‖ * ‖⟪a⟫‖ ≤ 16 := by
  have n1 := h.norm
  have := norm_nonneg ⟪a⟫
  have := norm_nonneg ⟪x⟫
  nlinarith

theorem coef_mul (A : Accurate lib val u w η Ω) (hu : u ≤ 1 / 64) (hη : η ≤ 1 / 64) {x a : Cx F} {z : ℂ} {δ : ℝ}
    (h : Near val x z δ) (hz : ‖z‖ ≤ 1) (hd : δ ≤ 1 / 4) (ha : ‖⟪a⟫‖ ≤ 12) :
    ‖⟪x * a⟫ - z * ⟪a⟫‖ ≤ (δ + 7 * u) * ‖⟪a⟫‖ + 5 * η :=
  apply_coef A.u_nonneg h hz hd (mul_err A hu hη x a (by linarith [h.norm]) (by linarith) (coef_range h hz hd ha))

theorem mul_coef (A : Accurate lib val u w η Ω) (hu : u ≤ 1 / 64) (hη : η ≤ 1 / 64) {x a : Cx F} {z : ℂ} {δ : ℝ}
    (h : Near val x z δ) (hz : ‖z‖ ≤ 1) (hd : δ ≤ 1 / 4) (ha : ‖⟪a⟫‖ ≤ 12) :
    ‖⟪a * x⟫ - ⟪a⟫ * z‖ ≤ (δ + 7 * u) * ‖⟪a⟫‖ + 5 * η := by
  have hr := mul_err A hu hη a x (by linarith) (by linarith [h.norm]) (by rw [mul_comm]; exact coef_range h hz hd ha)
  rw [mul_comm ⟪a⟫ z]
  refine apply_coef A.u_nonneg h hz hd ?_
  rw [mul_comm ⟪x⟫, mul_comm ‖⟪x⟫‖]; exact hr

theorem lane_coef (A : Accurate lib val u w η Ω) (hu : u ≤ 1 / 64) (hη : η ≤ 1 / 64) {x a : Cx F} {z : ℂ} {δ : ℝ}
    (h : Near val x z δ) (hz : ‖z‖ ≤ 1) (hd : δ ≤ 1 / 4) (ha : ‖⟪a⟫‖ ≤ 12) :
    ‖⟪laneMul x a⟫ - z * ⟪a⟫‖ ≤ (δ + 7 * u) * ‖⟪a⟫‖ + 5 * η :=
  apply_coef A.u_nonneg h hz hd (laneMul_err A hu hη x a (by linarith [h.norm]) (by linarith) (coef_range h hz hd ha))

/-- error of a sum whose terms carry errors -/
theorem sum_terms (A : Accurate lib val u w η Ω) {p q : Cx F} {P Q : ℂ} {ep eq : ℝ} (hp : ‖⟪p⟫ - P‖ ≤ ep) (hq : ‖⟪q⟫ - Q‖ ≤ eq)
    (hr : ‖P‖ + ‖Q‖ + ep + eq ≤ 64) :
    ‖⟪p + q⟫ - (P + Q)‖ ≤ ep + eq + 2 * u * (‖P‖ + ‖Q‖ + ep + eq) := by
  have n1 : ‖⟪p⟫‖ ≤ ‖P‖ + ep := by
    have := norm_add_le (⟪p⟫ - P) P; rw [sub_add_cancel] at this; linarith
  have n2 : ‖⟪q⟫‖ ≤ ‖Q‖ + eq := by
    have := norm_add_le (⟪q⟫ - Q) Q; rw [sub_add_cancel] at this; linarith
  have n3 := norm_add_le ⟪p⟫ ⟪q⟫
  have s := add_err A p q (by linarith [norm_nonneg Q, le_trans (norm_nonneg _) hq]) (by linarith [norm_nonneg P, le_trans (norm_nonneg _) hp])
  have e : ⟪p + q⟫ - (P + Q) = (⟪p + q⟫ - (⟪p⟫ + ⟪q⟫)) + (⟪p⟫ - P) + (⟪q⟫ - Q) := by ring
  have h3 : ‖⟪p + q⟫ - (P + Q)‖ ≤ ‖⟪p + q⟫ - (⟪p⟫ + ⟪q⟫)‖ + ‖⟪p⟫ - P‖ + ‖⟪q⟫ - Q‖ := by
    rw [e]; exact norm_add₃_le
  have h5 : u * ‖⟪p⟫ + ⟪q⟫‖ ≤ u * (‖P‖ + ‖Q‖ + ep + eq) := mul_le_mul_of_nonneg_left (by linarith) A.u_nonneg
  linarith

theorem diff_terms (A : Accurate lib val u w η Ω) {p q : Cx F} {P Q : ℂ} {ep eq : ℝ} (hp : ‖⟪p⟫ - P‖ ≤ ep) (hq : ‖⟪q⟫ - Q‖ ≤ eq)
    (hr : ‖P‖ + ‖Q‖ + ep + eq ≤ 64) :
    ‖⟪p - q⟫ - (P - Q)‖ ≤ ep + eq + 2 * u * (‖P‖ + ‖Q‖ + ep + eq) := by
  have n1 : ‖⟪p⟫‖ ≤ ‖P‖ + ep := by
    have := norm_add_le (⟪p⟫ - P) P; rw [sub_add_cancel] at this; linarith
  have n2 : ‖⟪q⟫‖ ≤ ‖Q‖ + eq := by
    have := norm_add_le (⟪q⟫ - Q) Q; rw [sub_add_cancel] at this; linarith
  have n3 := norm_sub_le ⟪p⟫ ⟪q⟫
  have s := sub_err A p q (by linarith [norm_nonneg Q, le_trans (norm_nonneg _) hq]) (by linarith [norm_nonneg P, le_trans (norm_nonneg _) hp])
  have e : ⟪p - q⟫ - (P - Q) = (⟪p - q⟫ - (⟪p⟫ - ⟪q⟫)) + (⟪p⟫ - P) + -(⟪q⟫ - Q) := by ring
  have h3 : ‖⟪p - q⟫ - (P - Q)‖ ≤ ‖⟪p - q⟫ - (⟪p⟫ - ⟪q⟫)‖ + ‖⟪p⟫ - P‖ + ‖⟪q⟫ - Q‖ := by
    rw [e, ← norm_neg (⟪q⟫ - Q)]; exact norm_add₃_le
  have h5 : u * ‖⟪p⟫ - ⟪q⟫‖ ≤ u * (‖P‖ + ‖Q‖ + ep + eq) := mul_le_mul_of_nonneg_left (by linarith) A.u_nonneg
  linarith

/-- one row of a 2×2 matrix -/
theorem row_err (A : Accurate lib val u w η Ω) (hu : u ≤ 1 / 64) (hη : η ≤ 1 / 64) (simd : Bool) {x y a b : Cx F} {X Y : ℂ} {δ : ℝ}
    (hx : Near val x X δ) (hy : Near val y Y δ) (hX : ‖X‖ ≤ 1) (hY : ‖Y‖ ≤ 1) (hd : δ ≤ 1 / 4) (ha : ‖⟪a⟫‖ ≤ 4) (hb : ‖⟪b⟫‖ ≤ 4) :
    ‖⟪rowOp simd x y a b⟫ - (X * ⟪a⟫ + Y * ⟪b⟫)‖ ≤ (δ + 10 * u) * (‖⟪a⟫‖ + ‖⟪b⟫‖) + 11 * η := by
  have key : ∀ p q : Cx F, ‖⟪p⟫ - X * ⟪a⟫‖ ≤ (δ + 7 * u) * ‖⟪a⟫‖ + 5 * η → ‖⟪q⟫ - Y * ⟪b⟫‖ ≤ (δ + 7 * u) * ‖⟪b⟫‖ + 5 * η →
      ‖⟪p + q⟫ - (X * ⟪a⟫ + Y * ⟪b⟫)‖ ≤ (δ + 10 * u) * (‖⟪a⟫‖ + ‖⟪b⟫‖) + 11 * η := by
    intro p q hp hq
    have pa := norm_nonneg ⟪a⟫
    have pb := norm_nonneg ⟪b⟫
    have na : ‖X * ⟪a⟫‖ ≤ ‖⟪a⟫‖ := by rw [norm_mul]; nlinarith
    have nb : ‖Y * ⟪b⟫‖ ≤ ‖⟪b⟫‖ := by rw [norm_mul]; nlinarith
    have hu0 := A.u_nonneg
    have hη0 := A.eta_nonneg
    have hd0 := hx.nonneg
    have hS : (δ + 7 * u) * ‖⟪a⟫‖ + 5 * η + ((δ + 7 * u) * ‖⟪b⟫‖ + 5 * η) ≤ (3 / 8) * (‖⟪a⟫‖ + ‖⟪b⟫‖) + 10 * η := by nlinarith
    have s := sum_terms A hp hq (by nlinarith)
    have h1 : u * (‖X * ⟪a⟫‖ + ‖Y * ⟪b⟫‖ + ((δ + 7 * u) * ‖⟪a⟫‖ + 5 * η) + ((δ + 7 * u) * ‖⟪b⟫‖ + 5 * η)) ≤
        u * ((11 / 8) * (‖⟪a⟫‖ + ‖⟪b⟫‖) + 10 * η) := mul_le_mul_of_nonneg_left (by linarith) hu0
    have h2 : u * η ≤ 1 / 64 * η := mul_le_mul_of_nonneg_right hu hη0
    have h3 : 0 ≤ u * (‖⟪a⟫‖ + ‖⟪b⟫‖) := by positivity
    nlinarith
  cases simd with
  | false => exact key _ _ (coef_mul A hu hη hx hX hd (by linarith)) (coef_mul A hu hη hy hY hd (by linarith))
  | true => exact key _ _ (lane_coef A hu hη hx hX hd (by linarith)) (lane_coef A hu hη hy hY hd (by linarith))

theorem mulOp_err (A : Accurate lib val u w η Ω) (hu : u ≤ 1 / 64) (hη : η ≤ 1 / 64) (simd : Bool) {x a : Cx F} {X : ℂ} {δ : ℝ}
    (hx : Near val x X δ) (hX : ‖X‖ ≤ 1) (hd : δ ≤ 1 / 4) (ha : ‖⟪a⟫‖ ≤ 4) :
    ‖⟪mulOp simd x a⟫ - ⟪a⟫ * X‖ ≤ (δ + 7 * u) * ‖⟪a⟫‖ + 5 * η := by
  cases simd with
  | false => exact mul_coef A hu hη hx hX hd (by linarith)
  | true => rw [mul_comm]; exact lane_coef A hu hη hx hX hd (by linarith)

/-! ## The coefficients -/

theorem cast_small (A : Accurate lib val u w η Ω) {r : ℝ} (h : |r| ≤ 1) : |val (lib.cast r) - r| ≤ u + η := by
  have := A.cast r (by linarith)
  nlinarith [mul_le_mul_of_nonneg_left h A.u_nonneg]

theorem castC_near (A : Accurate lib val u w η Ω) {z : ℂ} (h : ‖z‖ ≤ 1) : Near val (castC lib z) z (2 * (u + η)) :=
  Near.parts (cast_small A (le_trans (Complex.abs_re_le_norm z) h)) (cast_small A (le_trans (Complex.abs_im_le_norm z) h))

theorem lit_near (A : Accurate lib val u w η Ω) {a b : ℝ} (ha : |a| ≤ 1) (hb : |b| ≤ 1) :
    Near val (lit lib a b) ⟨a, b⟩ (2 * (u + η)) := Near.parts (cast_small A ha) (cast_small A hb)

variable {ε : ℝ}

theorem cast_angle (A : Accurate lib val u w η Ω) {a : ℝ} (ha : |a| ≤ 32) (hε : (u + η) * (1 + |a|) + w ≤ ε) (h4 : ε ≤ 1 / 400) :
    |val (lib.cast a) - a| + w ≤ ε ∧ |val (lib.cast a)| ≤ 33 := by
  have h := A.cast a (by linarith)
  have hu0 := A.u_nonneg
  have hη0 := A.eta_nonneg
  have hw0 := A.w_nonneg
  have pa := abs_nonneg a
  have h1 : 0 ≤ η * |a| := by positivity
  have hx : |val (lib.cast a) - a| + w ≤ ε := by nlinarith
  refine ⟨hx, ?_⟩
  have := abs_add_le (val (lib.cast a) - a) a
  rw [sub_add_cancel] at this
  linarith

theorem half_angle (A : Accurate lib val u w η Ω) {a : ℝ} (ha : |a| ≤ 32) (hε : (u + η) * (1 + |a|) + w ≤ ε) (h4 : ε ≤ 1 / 400) :
    |val (lib.half (lib.cast a)) - a / 2| + w ≤ 2 * ε ∧ |val (lib.half (lib.cast a))| ≤ 33 := by
  obtain ⟨h1, h2⟩ := cast_angle A ha hε h4
  have h := A.half (lib.cast a) (by linarith)
  have hu0 := A.u_nonneg
  have hη0 := A.eta_nonneg
  have hw0 := A.w_nonneg
  have pa := abs_nonneg a
  have h3 : |val (lib.cast a) / 2 - a / 2| = |val (lib.cast a) - a| / 2 := by
    rw [← sub_div, abs_div, abs_two]
  have h5 : |val (lib.half (lib.cast a)) - a / 2| ≤ |val (lib.half (lib.cast a)) - val (lib.cast a) / 2| + |val (lib.cast a) / 2 - a / 2| :=
    abs_sub_le _ _ _
  have h6 : η ≤ ε := by nlinarith [mul_nonneg hη0 pa, mul_nonneg hu0 pa]
  have hx : |val (lib.half (lib.cast a)) - a / 2| + w ≤ 2 * ε := by
    have := abs_nonneg (val (lib.cast a) - a)
    linarith
  refine ⟨hx, ?_⟩
  have := abs_add_le (val (lib.half (lib.cast a)) - a / 2) (a / 2)
  rw [sub_add_cancel, abs_div, abs_two] at this
  linarith

theorem cos_near (A : Accurate lib val u w η Ω) {x : F} {a δ : ℝ} (hx : |val x| ≤ 64) (h : |val x - a| + w ≤ δ) :
    |val (lib.cos x) - Real.cos a| ≤ δ := by
  have h1 := A.cos x hx
  have h2 := Real.abs_cos_sub_cos_le (val x) a
  have h3 : |val (lib.cos x) - Real.cos a| ≤ |val (lib.cos x) - Real.cos (val x)| + |Real.cos (val x) - Real.cos a| := abs_sub_le _ _ _
  linarith

theorem sin_near (A : Accurate lib val u w η Ω) {x : F} {a δ : ℝ} (hx : |val x| ≤ 64) (h : |val x - a| + w ≤ δ) :
    |val (lib.sin x) - Real.sin a| ≤ δ := by
  have h1 := A.sin x hx
  have h2 := Real.abs_sin_sub_sin_le (val x) a
  have h3 : |val (lib.sin x) - Real.sin a| ≤ |val (lib.sin x) - Real.sin (val x)| + |Real.sin (val x) - Real.sin a| := abs_sub_le _ _ _
  linarith

theorem cosHalf_near (A : Accurate lib val u w η Ω) {a : ℝ} (ha : |a| ≤ 32) (hε : (u + η) * (1 + |a|) + w ≤ ε) (h4 : ε ≤ 1 / 400) :
    |val (lib.cos (lib.half (lib.cast a))) - Real.cos (a / 2)| ≤ 2 * ε := by
  obtain ⟨h1, h2⟩ := half_angle A ha hε h4
  exact cos_near A (by linarith) h1

theorem sinHalf_near (A : Accurate lib val u w η Ω) {a : ℝ} (ha : |a| ≤ 32) (hε : (u + η) * (1 + |a|) + w ≤ ε) (h4 : ε ≤ 1 / 400) :
    |val (lib.sin (lib.half (lib.cast a))) - Real.sin (a / 2)| ≤ 2 * ε := by
  obtain ⟨h1, h2⟩ := half_angle A ha hε h4
  exact sin_near A (by linarith) h1

/-- multiplication by a number that means 1 -/
theorem one_mul_near (A : Accurate lib val u w η Ω) {o x : F} {c δ : ℝ} (ho : val o = 1) (hc : |c| ≤ 1) (hx : |val x - c| ≤ δ)
    (hd : δ ≤ 1) : |val (o * x) - c| ≤ δ + 2 * (u + η) := by
  have h1 : |val x| ≤ 2 := by
    have := abs_add_le (val x - c) c; rw [sub_add_cancel] at this; linarith
  have h := A.mul o x (by rw [ho]; norm_num) (by linarith)
  rw [ho, one_mul] at h
  have h2 : |val (o * x) - c| ≤ |val (o * x) - val x| + |val x - c| := abs_sub_le _ _ _
  have := A.eta_nonneg
  nlinarith [mul_le_mul_of_nonneg_left h1 A.u_nonneg]

theorem mul_one_near (A : Accurate lib val u w η Ω) {o x : F} {c δ : ℝ} (ho : val o = 1) (hc : |c| ≤ 1) (hx : |val x - c| ≤ δ)
    (hd : δ ≤ 1) : |val (x * o) - c| ≤ δ + 2 * (u + η) := by
  have h1 : |val x| ≤ 2 := by
    have := abs_add_le (val x - c) c; rw [sub_add_cancel] at this; linarith
  have h := A.mul x o (by linarith) (by rw [ho]; norm_num)
  rw [ho, mul_one] at h
  have h2 : |val (x * o) - c| ≤ |val (x * o) - val x| + |val x - c| := abs_sub_le _ _ _
  have := A.eta_nonneg
  nlinarith [mul_le_mul_of_nonneg_left h1 A.u_nonneg]

theorem eps_ge (A : Accurate lib val u w η Ω) {a : ℝ} (hε : (u + η) * (1 + |a|) + w ≤ ε) : u + η ≤ ε := by
  have := A.u_nonneg
  have := A.eta_nonneg
  have := A.w_nonneg
  nlinarith [abs_nonneg a, mul_nonneg (add_nonneg A.u_nonneg A.eta_nonneg) (abs_nonneg a)]

/-- `exp(i λ)` -/
theorem expC_near (A : Accurate lib val u w η Ω) {a : ℝ} (ha : |a| ≤ 32) (hε : (u + η) * (1 + |a|) + w ≤ ε) (h4 : ε ≤ 1 / 400) :
    Near val (expC lib (⟨0, lib.cast a⟩ : Cx F)) ⟨Real.cos a, Real.sin a⟩ (6 * ε) := by
  obtain ⟨h1, h2⟩ := cast_angle A ha hε h4
  have e := eps_ge A hε
  have hc := cos_near A (by linarith) h1
  have hs := sin_near A (by linarith) h1
  have ho : val (lib.exp 0) = 1 := A.exp_zero 0 A.zero
  have h3 := one_mul_near A ho (Real.abs_cos_le_one a) hc (by linarith)
  have h5 := one_mul_near A ho (Real.abs_sin_le_one a) hs (by linarith)
  exact (Near.parts (δ := 3 * ε) (le_trans h3 (by linarith)) (le_trans h5 (by linarith))).mono (by linarith)

/-- `polar(1, φ)` -/
theorem polarF_near (A : Accurate lib val u w η Ω) {a : ℝ} (ha : |a| ≤ 32) (hε : (u + η) * (1 + |a|) + w ≤ ε) (h4 : ε ≤ 1 / 400) :
    Near val (polarF lib 1 (lib.cast a) : Cx F) ⟨Real.cos a, Real.sin a⟩ (6 * ε) := by
  obtain ⟨h1, h2⟩ := cast_angle A ha hε h4
  have e := eps_ge A hε
  have hc := cos_near A (by linarith) h1
  have hs := sin_near A (by linarith) h1
  have h3 := one_mul_near A A.one (Real.abs_cos_le_one a) hc (by linarith)
  have h5 := one_mul_near A A.one (Real.abs_sin_le_one a) hs (by linarith)
  exact (Near.parts (δ := 3 * ε) (le_trans h3 (by linarith)) (le_trans h5 (by linarith))).mono (by linarith)

end

theorem norm_cis' (a : ℝ) : ‖(⟨Real.cos a, Real.sin a⟩ : ℂ)‖ ≤ 1 := by
  have h : ‖(⟨Real.cos a, Real.sin a⟩ : ℂ)‖ ^ 2 = 1 := by
    rw [← Complex.normSq_eq_norm_sq, Complex.normSq_apply]
    have := Real.cos_sq_add_sin_sq a
    simp only; nlinarith
  nlinarith [norm_nonneg (⟨Real.cos a, Real.sin a⟩ : ℂ)]

end Verif.Proofs
