import Verif.Proofs.EntropyReal
import Verif.Proofs.FloatRead

/-! # Rounding errors of entropies -/

namespace Verif.Proofs
open Verif Verif.Spec Verif.Model
attribute [-simp] BitVec.getLsbD_eq_getElem

theorem partialReduction_ok {α R : Type} [_root_.Zero R] [Add R] {l : List α} {f : α → Res (Option R)} {g : α → Option R}
    (h : ∀ a ∈ l, f a = .ok (g a)) (r : Res R) : PartialReduction l f r ↔ ∃ s, r = .ok s ∧ ReducesTo ((l.map g).filterMap id) s := by
  cases r with
  | error e =>
    simp only [PartialReduction, reduceCtorEq, false_and, exists_false, iff_false]
    rintro ⟨a, ha, he⟩
    rw [h a ha] at he
    cases he
  | ok s =>
    simp only [PartialReduction, mapM_each_ok h, Except.ok.injEq]
    constructor
    · rintro ⟨xs, rfl, hs⟩; exact ⟨s, rfl, hs⟩
    · rintro ⟨_, rfl, hs⟩; exact ⟨_, rfl, hs⟩

section
variable {F : Type} [_root_.Zero F] [One F] [Add F] [Sub F] [Mul F] [Neg F] {lib : FloatLib F} {E : EntropyLib F} {val : F → ℝ} {u w η ℓ Ω : ℝ}

omit [_root_.Zero F] [One F] [Add F] [Sub F] in
/-- the product `-x * log2 x` -/
theorem surprise_err (B : EntropyAccurate E val u η ℓ) (hu0 : 0 ≤ u) {x : F} (h0 : 0 < val x) (h1 : val x ≤ 64) :
    |val (surprise E x) - plogp (val x)| ≤ (u * (1 + ℓ) + ℓ) * |plogp (val x)| + η := by
  have e : plogp (val x) = -(val x * Real.logb 2 (val x)) := by
    rw [plogp, if_pos h0, one_div, Real.logb_inv]; ring
  have a1 := B.log2 x h0 h1
  have a2 := B.prod x h0 h1
  have hℓ := B.nonneg
  rw [e, abs_neg, abs_mul]
  generalize Real.logb 2 (val x) = L at *
  generalize val (E.log2 x) = L' at *
  have a3 : |val x * L' - val x * L| ≤ ℓ * (|val x| * |L|) := by
    rw [← mul_sub, abs_mul]
    calc _ ≤ |val x| * (ℓ * |L|) := mul_le_mul_of_nonneg_left a1 (abs_nonneg _)
      _ = _ := by ring
  have a4 : |val x * L'| ≤ (1 + ℓ) * (|val x| * |L|) := by
    have := abs_add_le (val x * L' - val x * L) (val x * L)
    rw [sub_add_cancel, abs_mul (val x) L] at this
    linarith
  have a5 := mul_le_mul_of_nonneg_left a4 hu0
  unfold surprise
  have a6 := abs_sub_le (val (-x * E.log2 x)) (-(val x * L')) (-(val x * L))
  have a7 : |-(val x * L') - -(val x * L)| = |val x * L' - val x * L| := by rw [← abs_neg]; congr 1; ring
  rw [a7] at a6
  calc _ ≤ _ := a6
    _ ≤ u * |val x * L'| + η + ℓ * (|val x| * |L|) := add_le_add a2 a3
    _ ≤ _ := by nlinarith

/-- the bound for one contribution -/
noncomputable def itemErr (u ℓ d p : ℝ) : ℝ := (5 * u + ℓ) * |plogp p| + 14 * u * p + 2 * (plogp d + 6 * d)

theorem item_arith {t eq ep u ℓ η p g : ℝ} (hu0 : 0 ≤ u) (hu : u ≤ 1 / 64) (hℓ0 : 0 ≤ ℓ) (hℓ : ℓ ≤ 1 / 64) (hp : 0 ≤ p) (hg : 18 * η ≤ g) (hη : 0 ≤ η)
    (h1 : |t - eq| ≤ (u * (1 + ℓ) + ℓ) * |eq| + η) (h2 : |eq - ep| ≤ 3 * u * |ep| + 13 * u * p + g) :
    |t - ep| ≤ (5 * u + ℓ) * |ep| + 14 * u * p + 2 * g := by
  have h3 : |eq| ≤ |eq - ep| + |ep| := by have := abs_add_le (eq - ep) ep; rwa [sub_add_cancel] at this
  have h4 := abs_sub_le t eq ep
  have hul : u * ℓ ≤ 1 / 64 * u := by nlinarith
  have ha : u * (1 + ℓ) + ℓ ≤ 65 / 64 * u + ℓ := by linarith
  have ha' : u * (1 + ℓ) + ℓ ≤ 1 / 31 := by linarith
  have ha0 : 0 ≤ u * (1 + ℓ) + ℓ := by positivity
  generalize u * (1 + ℓ) + ℓ = a at *
  generalize hD : 3 * u * |ep| + 13 * u * p + g = D at *
  have hD0 : 0 ≤ D := (abs_nonneg _).trans h2
  have h5 : a * |eq| ≤ a * |ep| + 1 / 31 * D := by
    have := mul_le_mul_of_nonneg_left (h3.trans (add_le_add h2 le_rfl)) ha0
    nlinarith
  have h6 : a * |ep| ≤ (65 / 64 * u + ℓ) * |ep| := mul_le_mul_of_nonneg_right ha (abs_nonneg _)
  have h7 : |t - ep| ≤ (65 / 64 * u + ℓ) * |ep| + 32 / 31 * D + η := by linarith
  rw [← hD] at h7
  have x1 : 0 ≤ u * |ep| := by positivity
  have x2 : 0 ≤ u * p := by positivity
  nlinarith

omit [_root_.Zero F] [One F] [Add F] [Sub F] in
/-- one contribution, for a computed probability that is positive -/
theorem surprise_item (B : EntropyAccurate E val u η ℓ) (hu0 : 0 ≤ u) (hu : u ≤ 1 / 64) (hη0 : 0 ≤ η) (hℓ : ℓ ≤ 1 / 64) {x : F} {p d : ℝ}
    (hp : 0 ≤ p) (hp' : p ≤ 16) (h0 : 0 < val x) (h : |val x - p| ≤ 3 * u * p + d) (hd : 3 * η ≤ d) (hd' : d ≤ 1 / 4) :
    |val (surprise E x) - plogp p| ≤ itemErr u ℓ d p := by
  have hx := abs_le.1 h
  have hq : val x ≤ 20 := by nlinarith
  have hd0 : 0 ≤ d := by linarith
  exact item_arith hu0 hu B.nonneg hℓ hp (by linarith [plogp_nonneg (d := d) (by linarith)]) hη0
    (surprise_err B hu0 h0 (by linarith)) (plogp_error hp hp' hu0 hu hq h hd0 hd')

/-- a computed probability that is not positive -/
theorem silent_item {p q u ℓ d : ℝ} (hu0 : 0 ≤ u) (hu : u ≤ 1 / 64) (hℓ0 : 0 ≤ ℓ) (hp : 0 ≤ p) (hp' : p ≤ 16) (h0 : q ≤ 0)
    (h : |q - p| ≤ 3 * u * p + d) (hd0 : 0 ≤ d) (hd' : d ≤ 1 / 4) : |0 - plogp p| ≤ itemErr u ℓ d p := by
  have := plogp_error hp hp' hu0 hu (by linarith) h hd0 hd'
  rw [plogp_neg h0] at this
  refine this.trans ?_
  unfold itemErr
  have x1 : 0 ≤ u * |plogp p| := by positivity
  have x2 : 0 ≤ u * p := by positivity
  have x3 : 0 ≤ ℓ * |plogp p| := by positivity
  have x4 := plogp_nonneg (d := d) (by linarith)
  nlinarith

/-- the value of a contribution that may be absent -/
def optVal (val : F → ℝ) : Option F → ℝ
  | some t => val t
  | none => 0

omit [_root_.Zero F] [One F] [Add F] [Sub F] [Mul F] [Neg F] in
theorem filterMap_sum {ι : Type} (c : ι → Option F) (l : List ι) :
    (((l.map c).filterMap id).map val).sum = (l.map fun i => optVal val (c i)).sum ∧
    absSum val ((l.map c).filterMap id) = (l.map fun i => |optVal val (c i)|).sum ∧ ((l.map c).filterMap id).length ≤ l.length := by
  unfold absSum
  induction l with
  | nil => simp
  | cons i l ih =>
    obtain ⟨h1, h2, h3⟩ := ih
    simp only [List.map_cons, List.sum_cons, List.length_cons]
    cases hc : c i with
    | none =>
      rw [List.filterMap_cons_none (by rfl)]
      exact ⟨by rw [h1]; exact (zero_add _).symm, by rw [h2]; show _ = |(0 : ℝ)| + _; rw [abs_zero, zero_add], by omega⟩
    | some t =>
      rw [List.filterMap_cons_some (by rfl)]
      simp only [List.map_cons, List.sum_cons, List.length_cons]
      exact ⟨congrArg (val t + ·) h1, congrArg (|val t| + ·) h2, by omega⟩

theorem list_close {ι : Type} {v e b : ι → ℝ} {l : List ι} (h : ∀ i ∈ l, |v i - e i| ≤ b i) :
    |(l.map v).sum - (l.map e).sum| ≤ (l.map b).sum ∧ (l.map fun i => |v i|).sum ≤ (l.map fun i => |e i|).sum + (l.map b).sum := by
  induction l with
  | nil => simp
  | cons i l ih =>
    obtain ⟨h1, h2⟩ := ih fun j hj => h j (List.mem_cons_of_mem _ hj)
    have h3 := h i List.mem_cons_self
    simp only [List.map_cons, List.sum_cons]
    have h4 : |v i| ≤ |v i - e i| + |e i| := by have := abs_add_le (v i - e i) (e i); rwa [sub_add_cancel] at this
    refine ⟨?_, by linarith⟩
    have := abs_add_le (v i - e i) ((l.map v).sum - (l.map e).sum)
    rw [show v i + (l.map v).sum - (e i + (l.map e).sum) = v i - e i + ((l.map v).sum - (l.map e).sum) by ring]
    linarith

theorem itemErr_sum {ι : Type} (u ℓ d : ℝ) (p : ι → ℝ) (l : List ι) :
    (l.map fun i => itemErr u ℓ d (p i)).sum = termErr u ℓ d l.length (l.map p).sum (l.map fun i => |plogp (p i)|).sum := by
  unfold termErr
  induction l with
  | nil => simp
  | cons i l ih =>
    simp only [List.map_cons, List.sum_cons, List.length_cons]
    rw [ih]
    unfold itemErr
    push_cast; ring

/-- the sum of the contributions -/
theorem entropy_sum (A : Accurate lib val u w η Ω) (Z : AddZero val Ω) {ι : Type} {l : List ι} {c : ι → Option F} {p : ι → ℝ} {d : ℝ} {N : Nat}
    {P M : ℝ} (hN : l.length = N) (hP : (l.map p).sum = P) (hM : (l.map fun i => |plogp (p i)|).sum = M)
    (hc : ∀ i ∈ l, |optVal val (c i) - plogp (p i)| ≤ itemErr u ℓ d (p i)) (hΩ : (1 + u) ^ N * (M + termErr u ℓ d N P M) ≤ Ω) {s : F}
    (hs : ReducesTo ((l.map c).filterMap id) s) : |val s - (l.map fun i => plogp (p i)).sum| ≤ entErr u ℓ d N P M := by
  obtain ⟨f1, f2, f3⟩ := filterMap_sum (val := val) c l
  obtain ⟨g1, g2⟩ := list_close hc
  rw [itemErr_sum, hN, hP, hM] at g1 g2
  have h1u : 1 ≤ 1 + u := by linarith [A.u_nonneg]
  have h0 := absSum_nonneg (val := val) ((l.map c).filterMap id)
  rw [← f2] at g2
  have hpow : (1 + u) ^ ((l.map c).filterMap id).length ≤ (1 + u) ^ N := pow_le_pow_right₀ h1u (by omega)
  have hpow' : (1 + u) ^ (((l.map c).filterMap id).length - 1) ≤ (1 + u) ^ N := pow_le_pow_right₀ h1u (by omega)
  have h1 := reducesTo_err A Z hs (le_trans (mul_le_mul hpow g2 h0 (by positivity)) hΩ)
  rw [f1] at h1
  have h2 : ((1 + u) ^ (((l.map c).filterMap id).length - 1) - 1) * absSum val ((l.map c).filterMap id) ≤
      ((1 + u) ^ N - 1) * (M + termErr u ℓ d N P M) :=
    mul_le_mul (by linarith) g2 h0 (by linarith [one_le_pow₀ h1u (n := N)])
  have := abs_sub_le (val s) (l.map fun i => optVal val (c i)).sum (l.map fun i => plogp (p i)).sum
  unfold entErr
  linarith

end

end Verif.Proofs
