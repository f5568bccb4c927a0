import Verif.Props.Circuit
import Verif.Props.Operator
import Verif.Spec.Gradient
import Verif.Model.Gradient
import Mathlib.Analysis.SpecialFunctions.Trigonometric.Deriv
import Mathlib.Analysis.Calculus.Deriv.Star
import Mathlib.Analysis.Complex.RealDeriv

/-! # Derivatives of states with respect to a parameter -/

namespace Verif.Proofs
open Verif Verif.Spec Verif.Model Verif.Props
attribute [-simp] BitVec.getLsbD_eq_getElem

/-- every amplitude of `ψ t` has the derivative `d` at `t0` -/
def Deriv (ψ : ℝ → U64 → ℂ) (d : U64 → ℂ) (t0 : ℝ) : Prop := ∀ j, HasDerivAt (fun t => ψ t j) (d j) t0

theorem deriv_applyMat {ψ : ℝ → U64 → ℂ} {d : U64 → ℂ} {t0 : ℝ} (h : Deriv ψ d t0) (ts : List Nat) (U : Nat → Nat → ℂ)
    (cs : List (Nat × Bool)) : Deriv (fun t => applyMat ts U cs (ψ t)) (applyMat ts U cs d) t0 := by
  intro j
  unfold applyMat
  by_cases hc : CtrlOK cs j
  · simp only [hc, if_true]
    exact HasDerivAt.fun_sum fun x _ => (h _).const_mul _
  · simp only [hc, if_false]
    exact h j

theorem deriv_onState {ψ : ℝ → U64 → ℂ} {d d' : U64 → ℂ} {t0 : ℝ} {dim : Nat} {F : ℝ → (U64 → ℂ) → U64 → ℂ} (h : Deriv ψ d t0)
    (hF : Deriv (fun t => F t (ψ t)) d' t0) :
    Deriv (fun t => onState dim (F t) (ψ t)) (fun j => if j.toNat < dim then d' j else d j) t0 := by
  intro j
  unfold onState
  by_cases hj : j.toNat < dim
  · simp only [hj, if_true]; exact hF j
  · simp only [hj, if_false]; exact h j

theorem deriv_applyPaulis {ψ : ℝ → U64 → ℂ} {d : U64 → ℂ} {t0 : ℝ} (h : Deriv ψ d t0) (l : List (Nat × Pauli1)) :
    Deriv (fun t => applyPaulis l (ψ t)) (applyPaulis l d) t0 := by
  induction l with
  | nil => exact h
  | cons a l ih => exact deriv_applyMat ih [a.1] (pauli1Mat a.2) []

theorem deriv_sumOperator {ψ : ℝ → U64 → ℂ} {d : U64 → ℂ} {t0 : ℝ} (h : Deriv ψ d t0) (ts : List PauliOp) :
    Deriv (fun t => sumOperator ts (ψ t)) (sumOperator ts d) t0 := by
  intro j
  unfold sumOperator
  induction ts with
  | nil => simpa using hasDerivAt_const t0 (0 : ℂ)
  | cons p ts ih =>
    simp only [List.map_cons, List.sum_cons]
    refine HasDerivAt.fun_add ?_ ih
    unfold pauliOperator
    exact (deriv_applyPaulis h _ j).const_mul p.coef

theorem inner_add_right (dim : Nat) (a b c : U64 → ℂ) : inner dim a (fun j => b j + c j) = inner dim a b + inner dim a c := by
  unfold inner
  rw [← Finset.sum_add_distrib]
  exact Finset.sum_congr rfl fun j _ => mul_add _ _ _

theorem inner_smul_right (dim : Nat) (a b : U64 → ℂ) (z : ℂ) : inner dim a (fun j => z * b j) = z * inner dim a b := by
  unfold inner
  rw [Finset.mul_sum]
  exact Finset.sum_congr rfl fun j _ => by ring

theorem inner_conj (dim : Nat) (a b : U64 → ℂ) : (starRingEnd ℂ) (inner dim a b) = inner dim b a := by
  unfold inner
  rw [map_sum]
  exact Finset.sum_congr rfl fun j _ => by rw [map_mul, Complex.conj_conj, mul_comm]

theorem inner_re_comm (dim : Nat) (a b : U64 → ℂ) : (inner dim a b).re = (inner dim b a).re := by
  rw [← inner_conj, Complex.conj_re]

/-- the derivative of an expectation value -/
theorem deriv_expectation {n : Nat} (ts : List PauliOp) (hH : IsHermitian n (sumOperator ts)) {ψ : ℝ → U64 → ℂ} {d : U64 → ℂ} {t0 : ℝ}
    (h : Deriv ψ d t0) :
    HasDerivAt (fun t => (inner (2 ^ n) (ψ t) (sumOperator ts (ψ t))).re) (2 * (inner (2 ^ n) (sumOperator ts (ψ t0)) d).re) t0 := by
  have h1 : HasDerivAt (fun t => inner (2 ^ n) (ψ t) (sumOperator ts (ψ t)))
      (inner (2 ^ n) d (sumOperator ts (ψ t0)) + inner (2 ^ n) (ψ t0) (sumOperator ts d)) t0 := by
    unfold inner
    rw [← Finset.sum_add_distrib]
    refine HasDerivAt.fun_sum fun j _ => ?_
    refine HasDerivAt.mul ?_ (deriv_sumOperator h ts j)
    have := (h j).star
    simpa using this
  have h2 := Complex.reCLM.hasFDerivAt.comp_hasDerivAt t0 h1
  refine h2.congr_deriv ?_
  rw [Complex.reCLM_apply, Complex.add_re, hH (ψ t0) d, Complex.conj_re, inner_re_comm _ d]
  ring

/-! ## rotations -/

/-- the Pauli product of a rotation without controls -/
noncomputable def axisOp (r : RotDesc) : (U64 → ℂ) → U64 → ℂ :=
  match r with
  | .axis .X q _ _ _ => applyMat [q] pauliX []
  | .axis .Y q _ _ _ => applyMat [q] pauliY []
  | .axis .Z q _ _ _ => applyMat [q] pauliZ []
  | .pauli p _ _ _ => applyMat (pauliQubits p) (pauliMat p) []

theorem applyMat_lin (ts : List Nat) (hts : TargetsOK ts) (P : Nat → Nat → ℂ) (a b : ℂ) (ψ : U64 → ℂ) (j : U64) :
    applyMat ts (fun r s => a * matOne r s - b * P r s) [] ψ j = a * ψ j - b * applyMat ts P [] ψ j := by
  have h1 : applyMat ts (matOne : Nat → Nat → ℂ) [] ψ j = ψ j := congrFun (applyMat_one_id hts ψ) j
  rw [← h1]
  unfold applyMat
  have : CtrlOK [] j := by simp [CtrlOK]
  simp only [this, if_true]
  rw [Finset.mul_sum, Finset.mul_sum, ← Finset.sum_sub_distrib]
  exact Finset.sum_congr rfl fun x _ => by ring

theorem targetsOK_one {q : Nat} (h : q < 64) : TargetsOK [q] := ⟨by simp, by simpa using h⟩

theorem targetsOK_pauliQubits (p : PauliOp) : TargetsOK (pauliQubits p) :=
  ⟨(List.nodup_range).filter _, fun q hq => List.mem_range.1 (List.mem_filter.1 hq).1⟩

theorem ctrlList_nil (vs : List Nat) : ctrlList [] vs = [] := by simp [ctrlList]

/-- a rotation without controls, as cosine and sine -/
theorem rot_form {r : RotDesc} (hf : FreeRot r) (hq : ∀ q ∈ qubitsOf (r.at 0), q < 64) (t : ℝ) (ψ : U64 → ℂ) (j : U64) :
    operatorOf (r.at t) ψ j = (Real.cos (rotScale r * t / 2) : ℂ) * ψ j -
      Complex.I * (Real.sin (rotScale r * t / 2) : ℂ) * axisOp r ψ j := by
  cases r with
  | axis a q k cs vs =>
    obtain rfl : cs = [] := hf
    have h64 : q < 64 := hq q (by cases a <;> simp [qubitsOf, RotDesc.at, targetsOf])
    cases a <;>
    · unfold operatorOf RotDesc.at axisOp rotScale
      simp only [targetsOf, matrixOf, controlsOf, ctrlList_nil, gate1Mat]
      exact applyMat_lin [q] (targetsOK_one h64) _ _ _ ψ j
  | pauli p k cs vs =>
    obtain ⟨rfl, him⟩ := hf
    unfold operatorOf RotDesc.at axisOp rotScale
    simp only [targetsOf, matrixOf, controlsOf, ctrlList_nil]
    have hc : p.coef = (p.coef.re : ℂ) := by apply Complex.ext <;> simp [him]
    rw [applyMat_lin _ (targetsOK_pauliQubits p)]
    have e : ((k * t : ℝ) : ℂ) * p.coef / 2 = ((k * p.coef.re * t / 2 : ℝ) : ℂ) := by
      rw [hc]; push_cast; simp; ring
    rw [e, ← Complex.ofReal_cos, ← Complex.ofReal_sin]

/-- the Pauli product squares to one -/
theorem axisOp_sq {r : RotDesc} (hq : ∀ q ∈ qubitsOf (r.at 0), q < 64) (ψ : U64 → ℂ) : axisOp r (axisOp r ψ) = ψ := by
  cases r with
  | axis a q k cs vs =>
    have h64 : q < 64 := hq q (by cases a <;> simp [qubitsOf, RotDesc.at, targetsOf])
    have key : ∀ P : Nat → Nat → ℂ, (∀ r s, r < 2 → s < 2 → P r 0 * P 0 s + P r 1 * P 1 s = matOne r s) →
        applyMat [q] P [] (applyMat [q] P [] ψ) = ψ := by
      intro P hP
      rw [applyMat_comp (targetsOK_one h64) (by intro q hq; cases hq)]
      refine (congrFun (applyMat_congr (V := matOne) (fun r s hr hs => ?_)) ψ).trans (applyMat_one_id (targetsOK_one h64) ψ)
      rw [← hP r s (by simpa using hr) (by simpa using hs)]
      simp [matMul, Finset.sum_range_succ]
    cases a <;>
    · refine key _ fun r s hr hs => ?_
      interval_cases r <;> interval_cases s <;> simp [pauliX, pauliY, pauliZ, mat2, matOne]
  | pauli p k cs vs =>
    unfold axisOp
    dsimp only
    rw [pauliQubits_eq, applyMat_pauliMat, applyMat_pauliMat, pauliAct_sq]

theorem deriv_axisOp {ψ : ℝ → U64 → ℂ} {d : U64 → ℂ} {t0 : ℝ} (h : Deriv ψ d t0) (r : RotDesc) :
    Deriv (fun t => axisOp r (ψ t)) (axisOp r d) t0 := by
  cases r with
  | axis a q k cs vs => cases a <;> exact deriv_applyMat h _ _ _
  | pauli p k cs vs => exact deriv_applyMat h _ _ _

theorem axisOp_lin (r : RotDesc) (a b : ℂ) (φ ψ : U64 → ℂ) (j : U64) :
    axisOp r (fun j => a * φ j - b * ψ j) j = a * axisOp r φ j - b * axisOp r ψ j := by
  have key : ∀ ts P, applyMat ts P [] (fun j => a * φ j - b * ψ j) j = a * applyMat ts P [] φ j - b * applyMat ts P [] ψ j := by
    intro ts P
    have : CtrlOK [] j := by simp [CtrlOK]
    unfold applyMat
    simp only [this, if_true]
    rw [Finset.mul_sum, Finset.mul_sum, ← Finset.sum_sub_distrib]
    exact Finset.sum_congr rfl fun x _ => by ring
  cases r with
  | axis c q k cs vs => cases c <;> exact key _ _
  | pauli p k cs vs => exact key _ _

/-- the derivative of a rotated state: the rotation by `-π / scale`, applied to the rotated state, times `-scale / 2`, plus the rotation of
the derivative -/
theorem deriv_rot {r : RotDesc} (hf : FreeRot r) (hq : ∀ q ∈ qubitsOf (r.at 0), q < 64) (hs : rotScale r ≠ 0) {ψ : ℝ → U64 → ℂ}
    {d : U64 → ℂ} {t0 : ℝ} (h : Deriv ψ d t0) :
    Deriv (fun t => operatorOf (r.at t) (ψ t)) (fun j => operatorOf (r.at t0) d j +
      (-(rotScale r / 2 : ℝ) : ℂ) * operatorOf (r.at (-Real.pi / rotScale r)) (operatorOf (r.at t0) (ψ t0)) j) t0 := by
  intro j
  have e : (fun t => operatorOf (r.at t) (ψ t) j) = fun t => (Real.cos (rotScale r * t / 2) : ℂ) * ψ t j -
      Complex.I * (Real.sin (rotScale r * t / 2) : ℂ) * axisOp r (ψ t) j := funext fun t => rot_form hf hq t _ j
  rw [e]
  have hin : HasDerivAt (fun t : ℝ => rotScale r * t / 2) (rotScale r / 2) t0 := by
    simpa using ((hasDerivAt_id t0).const_mul (rotScale r)).div_const 2
  have hc : HasDerivAt (fun t : ℝ => ((Real.cos (rotScale r * t / 2) : ℝ) : ℂ)) ((-Real.sin (rotScale r * t0 / 2) * (rotScale r / 2) : ℝ) : ℂ) t0 :=
    hin.cos.ofReal_comp
  have hsn : HasDerivAt (fun t : ℝ => ((Real.sin (rotScale r * t / 2) : ℝ) : ℂ)) ((Real.cos (rotScale r * t0 / 2) * (rotScale r / 2) : ℝ) : ℂ) t0 :=
    hin.sin.ofReal_comp
  have hA := deriv_axisOp h r j
  have := (hc.mul (h j)).sub ((hsn.const_mul Complex.I).mul hA)
  refine this.congr_deriv ?_
  have hpi : rotScale r * (-Real.pi / rotScale r) / 2 = -(Real.pi / 2) := by field_simp
  have e2 : operatorOf (r.at t0) (ψ t0) = fun j => (Real.cos (rotScale r * t0 / 2) : ℂ) * ψ t0 j -
      Complex.I * (Real.sin (rotScale r * t0 / 2) : ℂ) * axisOp r (ψ t0) j := funext fun j => rot_form hf hq t0 _ j
  dsimp only
  rw [rot_form hf hq t0 d, rot_form hf hq (-Real.pi / rotScale r), hpi, e2, axisOp_lin, axisOp_sq hq, Real.cos_neg, Real.sin_neg,
    Real.cos_pi_div_two, Real.sin_pi_div_two]
  push_cast
  linear_combination (-(rotScale r : ℂ) / 2 * Complex.sin (rotScale r * t0 / 2) * ψ t0 j) * Complex.I_mul_I

end Verif.Proofs
