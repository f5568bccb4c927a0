import Verif.Proofs.Kernels
import Verif.Model.Gate1
import Mathlib.Tactic.NormNum
import Mathlib.Tactic.FieldSimp

/-! # Helper lemmas about the named gates -/

namespace Verif.Model
open Verif Verif.Spec Complex
attribute [-simp] BitVec.getLsbD_eq_getElem

theorem expI_eq (x : ℝ) : expI x = cis x := by
  unfold expI cis
  congr 1
  apply Complex.ext <;> simp

theorem cis_eq (x : ℝ) : cis x = ⟨Real.cos x, Real.sin x⟩ := by
  unfold cis
  rw [Complex.exp_mul_I]
  apply Complex.ext <;> simp [← Complex.ofReal_cos, ← Complex.ofReal_sin]

theorem cis_add (x y : ℝ) : cis (x + y) = cis x * cis y := by
  unfold cis
  rw [← Complex.exp_add]
  congr 1
  push_cast; ring

theorem inv_sqrt2 : (1 / (Real.sqrt 2 : ℂ)) = ((Real.sqrt 2 / 2 : ℝ) : ℂ) := by
  have h : (Real.sqrt 2 : ℂ) * (Real.sqrt 2 : ℂ) = 2 := by
    rw [← Complex.ofReal_mul, Real.mul_self_sqrt (by norm_num)]; simp
  have h0 : (Real.sqrt 2 : ℂ) ≠ 0 := by
    intro e; rw [e] at h; norm_num at h
  push_cast
  field_simp
  linear_combination -h

theorem inv_sqrt2_pos : Real.cos (Real.pi / 4) = Real.sqrt 2 / 2 := Real.cos_pi_div_four
theorem inv_sqrt2_sin : Real.sin (Real.pi / 4) = Real.sqrt 2 / 2 := Real.sin_pi_div_four

/-- the 2x2 entries of a function matrix -/
def Entries (U : Nat → Nat → ℂ) (M : M22 ℂ) : Prop :=
  U 0 0 = M.m00 ∧ U 0 1 = M.m01 ∧ U 1 0 = M.m10 ∧ U 1 1 = M.m11

theorem entries_H : Entries (gate1Mat .H) hadamardMatrix := by
  simp only [Entries, gate1Mat, hadamardMatrix, inv_sqrt2, inverseSqrt2, mat2]
  refine ⟨?_, ?_, ?_, ?_⟩ <;> apply Complex.ext <;> simp

theorem entries_sqrtX : Entries (gate1Mat .SqrtX) sqrtXMatrix := by
  simp only [Entries, gate1Mat, sqrtXMatrix, mat2]
  refine ⟨?_, ?_, ?_, ?_⟩ <;> apply Complex.ext <;> simp <;> norm_num
theorem entries_sqrtXdag : Entries (gate1Mat .SqrtXdag) sqrtXdagMatrix := by
  simp only [Entries, gate1Mat, sqrtXdagMatrix, mat2]
  refine ⟨?_, ?_, ?_, ?_⟩ <;> apply Complex.ext <;> simp <;> norm_num
theorem entries_sqrtY : Entries (gate1Mat .SqrtY) sqrtYMatrix := by
  simp only [Entries, gate1Mat, sqrtYMatrix, mat2]
  refine ⟨?_, ?_, ?_, ?_⟩ <;> apply Complex.ext <;> simp <;> norm_num
theorem entries_sqrtYdag : Entries (gate1Mat .SqrtYdag) sqrtYdagMatrix := by
  simp only [Entries, gate1Mat, sqrtYdagMatrix, mat2]
  refine ⟨?_, ?_, ?_, ?_⟩ <;> apply Complex.ext <;> simp <;> norm_num

theorem entries_ibmq (θ p l : ℝ) : Entries (gate1Mat (.U3 θ p l)) (ibmqMatrix θ p l) := by
  simp only [Entries, gate1Mat, ibmqMatrix, mat2, expI_eq, cis_add]
  simp

theorem entries_u2 (p l : ℝ) : Entries (gate1Mat (.U2 p l)) (ibmqMatrix (Real.pi / 2) p l) := by
  have : Real.pi / 2 / 2 = Real.pi / 4 := by ring
  simp only [Entries, gate1Mat, ibmqMatrix, mat2, expI_eq, cis_add, this, inv_sqrt2_pos, inv_sqrt2_sin, inv_sqrt2]
  refine ⟨?_, ?_, ?_, ?_⟩ <;> simp <;> ring

theorem entries_rx (θ : ℝ) : Entries (gate1Mat (.RX θ))
    ⟨(Real.cos (θ / 2) : ℂ), ⟨0, -Real.sin (θ / 2)⟩, ⟨0, -Real.sin (θ / 2)⟩, (Real.cos (θ / 2) : ℂ)⟩ := by
  simp only [Entries, gate1Mat, rot, pauliX, mat2]
  refine ⟨?_, ?_, ?_, ?_⟩ <;> apply Complex.ext <;> simp [-ofReal_cos, -ofReal_sin]

theorem entries_ry (θ : ℝ) : Entries (gate1Mat (.RY θ))
    ⟨(Real.cos (θ / 2) : ℂ), ((-Real.sin (θ / 2) : ℝ) : ℂ), (Real.sin (θ / 2) : ℂ), (Real.cos (θ / 2) : ℂ)⟩ := by
  simp only [Entries, gate1Mat, rot, pauliY, mat2]
  refine ⟨?_, ?_, ?_, ?_⟩ <;> apply Complex.ext <;> simp [-ofReal_cos, -ofReal_sin]

theorem entries_rz (θ : ℝ) : Entries (gate1Mat (.RZ θ))
    ⟨⟨Real.cos (θ / 2), -Real.sin (θ / 2)⟩, 0, 0, ⟨Real.cos (θ / 2), Real.sin (θ / 2)⟩⟩ := by
  simp only [Entries, gate1Mat, rot, pauliZ, mat2]
  refine ⟨?_, ?_, ?_, ?_⟩ <;> apply Complex.ext <;> simp [-ofReal_cos, -ofReal_sin]

theorem entries_T : gate1Mat .T 1 1 = ⟨inverseSqrt2, inverseSqrt2⟩ := by
  simp only [gate1Mat, mat2, cis_eq, inv_sqrt2_pos, inv_sqrt2_sin, inverseSqrt2]
  simp
theorem entries_Tdag : gate1Mat .Tdag 1 1 = ⟨inverseSqrt2, -inverseSqrt2⟩ := by
  simp only [gate1Mat, mat2, cis_eq, Real.cos_neg, Real.sin_neg, inv_sqrt2_pos, inv_sqrt2_sin, inverseSqrt2]
  simp

/-- every kernel computes the operator of the textbook matrix -/
theorem gate1Kernel_spec {L B n q : Nat} (hL : LanesOK L) {o : Operands} (h : MasksOK B n o.t o.c o.v)
    (hq : IsBit o.t q) (cs : List (Nat × Bool)) (hcs : ∀ j : U64, j &&& o.c = o.v ↔ CtrlOK cs j) (k : Gate1)
    (ψ : U64 → ℂ) :
    DRuns (B * 2 ^ n) (gate1Kernel L n o (B * 2 ^ n) k) ψ
      (onState (B * 2 ^ n) (applyMat [q] (gate1Mat k) cs) ψ) := by
  cases k with
  | X => exact xGate_spec h hq cs hcs _ (by simp [gate1Mat, pauliX, mat2]) ψ
  | Y => exact yGate_spec h hq cs hcs _ _ _ (by
      simp only [gate1Mat, pauliY, mat2]
      refine ⟨?_, ?_, ?_, ?_⟩ <;> apply Complex.ext <;> simp) ψ
  | Z => exact phaseGate_spec h hq cs hcs _ _ (by
      simp only [gate1Mat, pauliZ, mat2]
      refine ⟨?_, ?_, ?_, ?_⟩ <;> apply Complex.ext <;> simp) ψ
  | H => exact dense1_spec hL h hq cs hcs _ _ entries_H ψ
  | S => exact phaseGate_spec h hq cs hcs _ _ (by
      simp only [gate1Mat, mat2]
      refine ⟨?_, ?_, ?_, ?_⟩ <;> apply Complex.ext <;> simp) ψ
  | Sdag => exact phaseGate_spec h hq cs hcs _ _ (by
      simp only [gate1Mat, mat2]
      refine ⟨?_, ?_, ?_, ?_⟩ <;> apply Complex.ext <;> simp) ψ
  | T => exact phaseGate_spec h hq cs hcs _ _ ⟨by simp [gate1Mat, mat2], by simp [gate1Mat, mat2],
      by simp [gate1Mat, mat2], entries_T⟩ ψ
  | Tdag => exact phaseGate_spec h hq cs hcs _ _ ⟨by simp [gate1Mat, mat2], by simp [gate1Mat, mat2],
      by simp [gate1Mat, mat2], entries_Tdag⟩ ψ
  | SqrtX => exact dense1_spec hL h hq cs hcs _ _ entries_sqrtX ψ
  | SqrtXdag => exact dense1_spec hL h hq cs hcs _ _ entries_sqrtXdag ψ
  | SqrtY => exact dense1_spec hL h hq cs hcs _ _ entries_sqrtY ψ
  | SqrtYdag => exact dense1_spec hL h hq cs hcs _ _ entries_sqrtYdag ψ
  | P0 => exact dense1_spec hL h hq cs hcs _ _ (by simp [gate1Mat, mat2, proj0Matrix]) ψ
  | P1 => exact dense1_spec hL h hq cs hcs _ _ (by simp [gate1Mat, mat2, proj1Matrix]) ψ
  | RX θ => exact dense1_spec hL h hq cs hcs _ _ (entries_rx θ) ψ
  | RY θ => exact dense1_spec hL h hq cs hcs _ _ (entries_ry θ) ψ
  | RZ θ => exact diagGate_spec h hq cs hcs _ _ _ (entries_rz θ) ψ
  | U1 lam => exact phaseGate_spec h hq cs hcs _ _ (by simp [gate1Mat, mat2, expI_eq]) ψ
  | U2 p l => exact dense1_spec hL h hq cs hcs _ _ (entries_u2 p l) ψ
  | U3 θ p l => exact dense1_spec hL h hq cs hcs _ _ (entries_ibmq θ p l) ψ

/-- `get_matrix` is the textbook matrix -/
theorem gate1GetMatrix_entries (k : Gate1) : Entries (gate1Mat k) (gate1GetMatrix k) := by
  cases k with
  | X => simp [Entries, gate1Mat, gate1GetMatrix, pauliX, mat2]
  | Y =>
    simp only [Entries, gate1Mat, gate1GetMatrix, pauliY, mat2]
    refine ⟨?_, ?_, ?_, ?_⟩ <;> apply Complex.ext <;> simp
  | Z => simp [Entries, gate1Mat, gate1GetMatrix, pauliZ, mat2]
  | H => simp [Entries, gate1Mat, gate1GetMatrix, mat2]; ring
  | S =>
    simp only [Entries, gate1Mat, gate1GetMatrix, mat2]
    refine ⟨?_, ?_, ?_, ?_⟩ <;> apply Complex.ext <;> simp
  | Sdag =>
    simp only [Entries, gate1Mat, gate1GetMatrix, mat2]
    refine ⟨?_, ?_, ?_, ?_⟩ <;> apply Complex.ext <;> simp
  | T =>
    refine ⟨by simp [gate1Mat, gate1GetMatrix, mat2], by simp [gate1Mat, gate1GetMatrix, mat2],
      by simp [gate1Mat, gate1GetMatrix, mat2], ?_⟩
    rw [entries_T]
    simp only [gate1GetMatrix]
    rw [div_eq_mul_one_div, inv_sqrt2]
    apply Complex.ext <;> simp [inverseSqrt2]
  | Tdag =>
    refine ⟨by simp [gate1Mat, gate1GetMatrix, mat2], by simp [gate1Mat, gate1GetMatrix, mat2],
      by simp [gate1Mat, gate1GetMatrix, mat2], ?_⟩
    rw [entries_Tdag]
    simp only [gate1GetMatrix]
    rw [div_eq_mul_one_div, inv_sqrt2]
    apply Complex.ext <;> simp [inverseSqrt2]
  | SqrtX => exact entries_sqrtX
  | SqrtXdag => exact entries_sqrtXdag
  | SqrtY => exact entries_sqrtY
  | SqrtYdag => exact entries_sqrtYdag
  | P0 => simp [Entries, gate1Mat, gate1GetMatrix, mat2]
  | P1 => simp [Entries, gate1Mat, gate1GetMatrix, mat2]
  | RX θ => exact entries_rx θ
  | RY θ => exact entries_ry θ
  | RZ θ =>
    obtain ⟨h1, h2, h3, h4⟩ := entries_rz θ
    refine ⟨?_, h2, h3, ?_⟩
    · rw [h1]; simp [gate1GetMatrix, expI_eq, cis_eq]
    · rw [h4]; simp [gate1GetMatrix, expI_eq, cis_eq]
  | U1 lam => simp [Entries, gate1Mat, gate1GetMatrix, mat2, expI_eq]
  | U2 p l =>
    have := entries_u2 p l
    have e : Real.pi / 2 / 2 = Real.pi / 4 := by ring
    simpa [Entries, ibmqMatrix, gate1GetMatrix, e] using this
  | U3 θ p l => exact entries_ibmq θ p l

end Verif.Model
