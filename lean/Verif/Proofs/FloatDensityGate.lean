import Verif.Proofs.FloatDensityEcr
import Verif.Proofs.DensityUpdate

/-! # Rounding errors of `update_quantum_state` on density matrices -/

namespace Verif.Proofs
open Verif Verif.Spec Verif.Model
open scoped ComplexConjugate
attribute [-simp] BitVec.getLsbD_eq_getElem

section
variable {F : Type} [_root_.Zero F] [One F] [Add F] [Sub F] [Mul F] [Neg F] {lib : FloatLib F} {val : F → ℝ} {u w η Ω ε δ : ℝ}
  {n q : Nat} {cs : List (Nat × Bool)}

local notation "⟪" x "⟫" => cval val x

/-- diagonal matrices of entries at most one never enlarge an amplitude -/
theorem normSq_diagGate (n q : Nat) (hq : q < 64) (cs : List (Nat × Bool)) {U : Nat → Nat → ℂ} (h : U 0 1 = 0 ∧ U 1 0 = 0) (h0 : ‖U 0 0‖ ≤ 1) (h1 : ‖U 1 1‖ ≤ 1)
    (ψ : U64 → ℂ) : normSq (2 ^ n) (applyMat [q] U cs ψ) ≤ normSq (2 ^ n) ψ := by
  unfold Verif.Spec.normSq
  refine Finset.sum_le_sum fun j _ => ?_
  rw [Complex.normSq_eq_norm_sq, Complex.normSq_eq_norm_sq, applyMat_one]
  refine pow_le_pow_left₀ (norm_nonneg _) ?_ 2
  split
  · have hs := setBit_self j hq
    cases hb : j.getLsbD q
    · rw [hb] at hs
      simp only [Bool.toNat_false, h.1, zero_mul, add_zero, hs, norm_mul]
      exact mul_le_of_le_one_left (norm_nonneg _) h0
    · rw [hb] at hs
      simp only [Bool.toNat_true, h.2, zero_mul, zero_add, hs, norm_mul]
      exact mul_le_of_le_one_left (norm_nonneg _) h1
  · exact le_rfl

/-- the operators of the standard gates never enlarge the norm -/
theorem standard_con {g : UGate} (hv : Valid g) (hs : StandardGate g) {n : Nat} (hn : n < 32) (ht : ∀ q ∈ UGate.ts g, q < n) (ψ : U64 → ℂ) :
    normSq (2 ^ n) (opOf g ψ) ≤ normSq (2 ^ n) ψ := by
  have hsize : 1 * 2 ^ n ≤ 2 ^ 64 := by
    rw [one_mul_pow]; exact Nat.pow_le_pow_right (by omega) (by omega)
  have key : UnitaryHyp g → normSq (2 ^ n) (opOf g ψ) ≤ normSq (2 ^ n) ψ := by
    intro hu
    have := normSq_valid hv hu hsize ht ψ
    rw [one_mul_pow] at this
    exact this.le
  cases g with
  | ident => exact key trivial
  | globalPhase phase o => exact key trivial
  | swap o => exact key trivial
  | ecr g => exact key trivial
  | one k o =>
    by_cases h : k ≠ .P0 ∧ k ≠ .P1
    · exact key h
    · obtain ⟨ho, q, hq⟩ := hv
      have hqn : q < n := ht q (by rw [show UGate.ts (.one k o) = [q] from hq]; simp)
      show normSq (2 ^ n) (applyMat (UGate.ts (.one k o)) (gate1Mat k) (UGate.cs (.one k o)) ψ) ≤ _
      rw [show UGate.ts (.one k o) = [q] from hq]
      have hk : k = .P0 ∨ k = .P1 := by
        by_contra hh
        exact h ⟨fun e => hh (Or.inl e), fun e => hh (Or.inr e)⟩
      rcases hk with rfl | rfl
      · exact normSq_diagGate n q (by omega) _ (by simp [gate1Mat, mat2]) (by simp [gate1Mat, mat2]) (by simp [gate1Mat, mat2]) ψ
      · exact normSq_diagGate n q (by omega) _ (by simp [gate1Mat, mat2]) (by simp [gate1Mat, mat2]) (by simp [gate1Mat, mat2]) ψ
  | perm g => exact hs.elim
  | dense g => exact hs.elim
  | sparse g => exact hs.elim
  | pauli g => exact hs.elim
  | pauliRot g angle => exact hs.elim

/-- the constants of the square roots -/
theorem near_halves (R : DMRange lib val u w η Ω ε n) {a b : ℝ} (ha : |a| ≤ 1 / 2) (hb : |b| ≤ 1 / 2) :
    Near val (lit lib a b : Cx F) (⟨a, b⟩ : ℂ) (80 * ε) ∧ ‖(⟨a, b⟩ : ℂ)‖ ≤ 1 := by
  obtain ⟨hu0, hη0, hε0, he, h4, hu, hη, hs'⟩ := R.facts
  exact ⟨(lit_near R.acc (by linarith) (by linarith)).mono (by linarith), norm_half_half _ _ ha hb⟩

theorem abs_half : |(0.5 : ℝ)| ≤ 1 / 2 := by norm_num [abs_of_nonneg]
theorem abs_neg_half : |(-0.5 : ℝ)| ≤ 1 / 2 := by rw [abs_neg]; exact abs_half

theorem close_dmSqrtX (R : DMRange lib val u w η Ω ε n) {o : Operands} (h : MasksOK 1 n o.t o.c o.v) (hq : IsBit o.t q)
    (hcs : ∀ j : U64, j &&& o.c = o.v ↔ CtrlOK cs j)
    (hcon : ∀ ψ, normSq (2 ^ n) (applyMat [q] (gate1Mat .SqrtX) cs ψ) ≤ normSq (2 ^ n) ψ) :
    MCloseTo n val ε η (dmGate1F lib o (2 ^ n) .SqrtX : List (MLaunch (Cx F))) (applyMat [q] (gate1Mat .SqrtX) cs) := by
  obtain ⟨npm, lpm⟩ := near_halves R abs_half abs_neg_half
  obtain ⟨npp, lpp⟩ := near_halves R abs_half abs_half
  exact close_dmDense1 R h hq hcs (M := sqrtXF lib) (N := sqrtXMatrix) ⟨npp, npm, npm, npp⟩ ⟨lpp, lpm, lpm, lpp⟩ _ entries_sqrtX hcon

theorem close_dmSqrtXdag (R : DMRange lib val u w η Ω ε n) {o : Operands} (h : MasksOK 1 n o.t o.c o.v) (hq : IsBit o.t q)
    (hcs : ∀ j : U64, j &&& o.c = o.v ↔ CtrlOK cs j)
    (hcon : ∀ ψ, normSq (2 ^ n) (applyMat [q] (gate1Mat .SqrtXdag) cs ψ) ≤ normSq (2 ^ n) ψ) :
    MCloseTo n val ε η (dmGate1F lib o (2 ^ n) .SqrtXdag : List (MLaunch (Cx F))) (applyMat [q] (gate1Mat .SqrtXdag) cs) := by
  obtain ⟨npm, lpm⟩ := near_halves R abs_half abs_neg_half
  obtain ⟨npp, lpp⟩ := near_halves R abs_half abs_half
  exact close_dmDense1 R h hq hcs (M := sqrtXdagF lib) (N := sqrtXdagMatrix) ⟨npm, npp, npp, npm⟩ ⟨lpm, lpp, lpp, lpm⟩ _ entries_sqrtXdag hcon

theorem close_dmSqrtY (R : DMRange lib val u w η Ω ε n) {o : Operands} (h : MasksOK 1 n o.t o.c o.v) (hq : IsBit o.t q)
    (hcs : ∀ j : U64, j &&& o.c = o.v ↔ CtrlOK cs j)
    (hcon : ∀ ψ, normSq (2 ^ n) (applyMat [q] (gate1Mat .SqrtY) cs ψ) ≤ normSq (2 ^ n) ψ) :
    MCloseTo n val ε η (dmGate1F lib o (2 ^ n) .SqrtY : List (MLaunch (Cx F))) (applyMat [q] (gate1Mat .SqrtY) cs) := by
  obtain ⟨nmm, lmm⟩ := near_halves R abs_neg_half abs_neg_half
  obtain ⟨npp, lpp⟩ := near_halves R abs_half abs_half
  exact close_dmDense1 R h hq hcs (M := sqrtYF lib) (N := sqrtYMatrix) ⟨npp, nmm, npp, npp⟩ ⟨lpp, lmm, lpp, lpp⟩ _ entries_sqrtY hcon

theorem close_dmSqrtYdag (R : DMRange lib val u w η Ω ε n) {o : Operands} (h : MasksOK 1 n o.t o.c o.v) (hq : IsBit o.t q)
    (hcs : ∀ j : U64, j &&& o.c = o.v ↔ CtrlOK cs j)
    (hcon : ∀ ψ, normSq (2 ^ n) (applyMat [q] (gate1Mat .SqrtYdag) cs ψ) ≤ normSq (2 ^ n) ψ) :
    MCloseTo n val ε η (dmGate1F lib o (2 ^ n) .SqrtYdag : List (MLaunch (Cx F))) (applyMat [q] (gate1Mat .SqrtYdag) cs) := by
  obtain ⟨nmp, lmp⟩ := near_halves R abs_neg_half abs_half
  obtain ⟨npm, lpm⟩ := near_halves R abs_half abs_neg_half
  exact close_dmDense1 R h hq hcs (M := sqrtYdagF lib) (N := sqrtYdagMatrix) ⟨npm, npm, nmp, npm⟩ ⟨lpm, lpm, lmp, lpm⟩ _ entries_sqrtYdag hcon

theorem close_dmGate1 (R : DMRange lib val u w η Ω ε n) {o : Operands}
    (h : MasksOK 1 n o.t o.c o.v) (hq : IsBit o.t q) (hcs : ∀ j : U64, j &&& o.c = o.v ↔ CtrlOK cs j) (k : Gate1)
    (hk : ∀ a ∈ angles1 k, |a| ≤ 32 ∧ (u + η) * (1 + |a|) + w ≤ ε)
    (hcon : ∀ ψ, normSq (2 ^ n) (applyMat [q] (gate1Mat k) cs ψ) ≤ normSq (2 ^ n) ψ) :
    MCloseTo n val ε η (dmGate1F lib o (2 ^ n) k : List (MLaunch (Cx F))) (applyMat [q] (gate1Mat k) cs) := by
  obtain ⟨hu0, hη0, hε0, he, h4, hu, hη, hs'⟩ := R.facts
  have A := R.acc
  have hw0 := A.w_nonneg
  have h4 : ε ≤ 1 / 400 := by linarith
  obtain ⟨hI, hNI, l1, l2⟩ := near_I R
  have hM1 : Near val (⟨-1, 0⟩ : Cx F) (⟨-1, 0⟩ : ℂ) (80 * ε) :=
    (near_self ((cval_m1 A).trans (by apply Complex.ext <;> simp))).mono (by linarith)
  have l3 : ‖(⟨-1, 0⟩ : ℂ)‖ ≤ 1 := by rw [norm_real]; norm_num
  have hO : Near val (1 : Cx F) 1 (80 * ε) := (near_self (cval_one A)).mono (by linarith)
  have hO' : Near val (⟨1, 0⟩ : Cx F) (⟨1, 0⟩ : ℂ) (80 * ε) := hO
  have l0 : ‖(⟨1, 0⟩ : ℂ)‖ ≤ 1 := by rw [norm_real]; norm_num
  have hZ : Near val (0 : Cx F) 0 (80 * ε) := (near_self (cval_zero A)).mono (by linarith)
  have hs := cast_small A invSqrt2_abs
  have hS : Near val (⟨lib.cast inverseSqrt2, 0⟩ : Cx F) ⟨inverseSqrt2, 0⟩ (80 * ε) := (Near.real hs A.zero).mono (by linarith)
  have hSn : Near val (⟨-lib.cast inverseSqrt2, 0⟩ : Cx F) ⟨-inverseSqrt2, 0⟩ (80 * ε) :=
    (Near.real (δ := u + η) (by rw [A.neg, ← neg_sub', abs_neg]; exact hs) A.zero).mono (by linarith)
  have lS : ‖(⟨inverseSqrt2, 0⟩ : ℂ)‖ ≤ 1 := by rw [norm_real]; exact invSqrt2_abs
  have lSn : ‖(⟨-inverseSqrt2, 0⟩ : ℂ)‖ ≤ 1 := by rw [norm_real, abs_neg]; exact invSqrt2_abs
  have hl : ∀ {a b : ℝ}, |a| ≤ 1 → |b| ≤ 1 → Near val (lit lib a b : Cx F) (⟨a, b⟩ : ℂ) (80 * ε) :=
    fun ha hb => (lit_near A ha hb).mono (by linarith)
  obtain ⟨l9, l10⟩ := norm_invSqrt2_pair
  cases k with
  | X => exact close_dmX R h hq hcs _ (by simp [gate1Mat, pauliX, mat2]) hcon
  | Y => exact close_dmY R h hq hcs _ (by
      simp only [gate1Mat, pauliY, mat2]
      refine ⟨?_, ?_, ?_, ?_⟩ <;> apply Complex.ext <;> simp) hcon
  | Z => exact close_dmDiag R h hq hcs hO' l0 hM1 l3 _ (by
      simp only [gate1Mat, pauliZ, mat2]
      refine ⟨?_, ?_, ?_, ?_⟩ <;> apply Complex.ext <;> simp) hcon
  | H =>
    have e : (-⟨inverseSqrt2, 0⟩ : ℂ) = ⟨-inverseSqrt2, 0⟩ := by apply Complex.ext <;> simp
    have hE := entries_H
    unfold hadamardMatrix at hE
    rw [e] at hE
    exact close_dmDense1 R h hq hcs ⟨hS, hS, hS, hSn⟩ ⟨lS, lS, lS, lSn⟩ _ hE hcon
  | S => exact close_dmPhase R h hq hcs hI l1 (by apply Complex.ext <;> simp) _ (by
      simp only [gate1Mat, mat2]
      refine ⟨?_, ?_, ?_, ?_⟩ <;> apply Complex.ext <;> simp) hcon
  | Sdag => exact close_dmPhase R h hq hcs hNI l2 (by apply Complex.ext <;> simp) _ (by
      simp only [gate1Mat, mat2]
      refine ⟨?_, ?_, ?_, ?_⟩ <;> apply Complex.ext <;> simp) hcon
  | T => exact close_dmPhase R h hq hcs (X := ⟨inverseSqrt2, inverseSqrt2⟩) (hl invSqrt2_abs invSqrt2_abs) l9 (by
      apply Complex.ext
      · simp [inverseSqrt2_sq]
      · simp) _ ⟨by simp [gate1Mat, mat2], by simp [gate1Mat, mat2], by simp [gate1Mat, mat2], entries_T⟩ hcon
  | Tdag => exact close_dmPhase R h hq hcs (X := ⟨inverseSqrt2, -inverseSqrt2⟩) (hl invSqrt2_abs (by rw [abs_neg]; exact invSqrt2_abs)) l10 (by
      apply Complex.ext
      · simp [inverseSqrt2_sq]
      · simp) _ ⟨by simp [gate1Mat, mat2], by simp [gate1Mat, mat2], by simp [gate1Mat, mat2], entries_Tdag⟩ hcon
  | SqrtX => exact close_dmSqrtX R h hq hcs hcon
  | SqrtXdag => exact close_dmSqrtXdag R h hq hcs hcon
  | SqrtY => exact close_dmSqrtY R h hq hcs hcon
  | SqrtYdag => exact close_dmSqrtYdag R h hq hcs hcon
  | P0 => exact close_dmDense1 R h hq hcs (N := proj0Matrix) ⟨hO, hZ, hZ, hZ⟩ (by simp [proj0Matrix]) _ (by simp [gate1Mat, mat2, proj0Matrix]) hcon
  | P1 => exact close_dmDense1 R h hq hcs (N := proj1Matrix) ⟨hZ, hZ, hZ, hO⟩ (by simp [proj1Matrix]) _ (by simp [gate1Mat, mat2, proj1Matrix]) hcon
  | RX a =>
    obtain ⟨ha, hεa⟩ := hk a (by simp [angles1])
    have c := cosHalf_near A ha hεa h4
    have s := sinHalf_near A ha hεa h4
    have n1 : Near val (⟨lib.cos (lib.half (lib.cast a)), 0⟩ : Cx F) ⟨Real.cos (a / 2), 0⟩ (80 * ε) := (Near.real c A.zero).mono (by linarith)
    have n2 : Near val (⟨0, -lib.sin (lib.half (lib.cast a))⟩ : Cx F) ⟨0, -Real.sin (a / 2)⟩ (80 * ε) :=
      (Near.imag (δ := 2 * ε) (by rw [A.neg, ← neg_sub', abs_neg]; exact s) A.zero).mono (by linarith)
    have m1 : ‖(⟨Real.cos (a / 2), 0⟩ : ℂ)‖ ≤ 1 := by rw [norm_real]; exact Real.abs_cos_le_one _
    have m2 : ‖(⟨0, -Real.sin (a / 2)⟩ : ℂ)‖ ≤ 1 := by rw [norm_imag, abs_neg]; exact Real.abs_sin_le_one _
    exact close_dmDense1 R h hq hcs (N := ⟨⟨Real.cos (a / 2), 0⟩, ⟨0, -Real.sin (a / 2)⟩, ⟨0, -Real.sin (a / 2)⟩, ⟨Real.cos (a / 2), 0⟩⟩)
      ⟨n1, n2, n2, n1⟩ ⟨m1, m2, m2, m1⟩ _ (entries_rx a) hcon
  | RY a =>
    obtain ⟨ha, hεa⟩ := hk a (by simp [angles1])
    have c := cosHalf_near A ha hεa h4
    have s := sinHalf_near A ha hεa h4
    have n1 : Near val (⟨lib.cos (lib.half (lib.cast a)), 0⟩ : Cx F) ⟨Real.cos (a / 2), 0⟩ (80 * ε) := (Near.real c A.zero).mono (by linarith)
    have n2 : Near val (⟨-lib.sin (lib.half (lib.cast a)), 0⟩ : Cx F) ⟨-Real.sin (a / 2), 0⟩ (80 * ε) :=
      (Near.real (δ := 2 * ε) (by rw [A.neg, ← neg_sub', abs_neg]; exact s) A.zero).mono (by linarith)
    have n3 : Near val (⟨lib.sin (lib.half (lib.cast a)), 0⟩ : Cx F) ⟨Real.sin (a / 2), 0⟩ (80 * ε) := (Near.real s A.zero).mono (by linarith)
    have m1 : ‖(⟨Real.cos (a / 2), 0⟩ : ℂ)‖ ≤ 1 := by rw [norm_real]; exact Real.abs_cos_le_one _
    have m2 : ‖(⟨-Real.sin (a / 2), 0⟩ : ℂ)‖ ≤ 1 := by rw [norm_real, abs_neg]; exact Real.abs_sin_le_one _
    have m3 : ‖(⟨Real.sin (a / 2), 0⟩ : ℂ)‖ ≤ 1 := by rw [norm_real]; exact Real.abs_sin_le_one _
    exact close_dmDense1 R h hq hcs (N := ⟨⟨Real.cos (a / 2), 0⟩, ⟨-Real.sin (a / 2), 0⟩, ⟨Real.sin (a / 2), 0⟩, ⟨Real.cos (a / 2), 0⟩⟩)
      ⟨n1, n2, n3, n1⟩ ⟨m1, m2, m3, m1⟩ _ (entries_ry a) hcon
  | RZ a =>
    obtain ⟨ha, hεa⟩ := hk a (by simp [angles1])
    have c := cosHalf_near A ha hεa h4
    have s := sinHalf_near A ha hεa h4
    have s' : |val (-lib.sin (lib.half (lib.cast a))) - -Real.sin (a / 2)| ≤ 2 * ε := by rw [A.neg, ← neg_sub', abs_neg]; exact s
    have n1 : Near val (⟨lib.cos (lib.half (lib.cast a)), -lib.sin (lib.half (lib.cast a))⟩ : Cx F)
      ⟨Real.cos (a / 2), -Real.sin (a / 2)⟩ (80 * ε) := (Near.parts c s').mono (by linarith)
    have n2 : Near val (⟨lib.cos (lib.half (lib.cast a)), lib.sin (lib.half (lib.cast a))⟩ : Cx F)
      ⟨Real.cos (a / 2), Real.sin (a / 2)⟩ (80 * ε) := (Near.parts c s).mono (by linarith)
    have m1 : ‖(⟨Real.cos (a / 2), -Real.sin (a / 2)⟩ : ℂ)‖ ≤ 1 := by
      have := norm_cis' (-(a / 2)); rwa [Real.cos_neg, Real.sin_neg] at this
    exact close_dmDiag R h hq hcs n1 m1 n2 (norm_cis' _) _ (entries_rz a) hcon
  | U1 a =>
    obtain ⟨ha, hεa⟩ := hk a (by simp [angles1])
    exact close_dmDiag R h hq hcs hO' l0 ((expC_near A ha hεa h4).mono (by linarith)) (norm_cis' a) _ (by
      simp only [gate1Mat, mat2, cis_eq]
      refine ⟨?_, ?_, ?_, ?_⟩ <;> apply Complex.ext <;> simp) hcon
  | U2 b c =>
    obtain ⟨ha, hεa⟩ := hk (Real.pi / 2) (by simp [angles1])
    obtain ⟨hb, hεb⟩ := hk b (by simp [angles1])
    obtain ⟨hc, hεc⟩ := hk c (by simp [angles1])
    obtain ⟨h1, h2⟩ := ibmqF_near A ha hb hc hεa hεb hεc h4
    exact close_dmDense1 R h hq hcs h1 h2 _ (by rw [ibmqF_exact]; exact entries_u2 b c) hcon
  | U3 a b c =>
    obtain ⟨ha, hεa⟩ := hk a (by simp [angles1])
    obtain ⟨hb, hεb⟩ := hk b (by simp [angles1])
    obtain ⟨hc, hεc⟩ := hk c (by simp [angles1])
    obtain ⟨h1, h2⟩ := ibmqF_near A ha hb hc hεa hεb hεc h4
    exact close_dmDense1 R h hq hcs h1 h2 _ (by rw [ibmqF_exact]; exact entries_ibmq a b c) hcon

/-- the launches of a valid standard gate in floating-point arithmetic stay close to conjugation by its operator -/
theorem updateDMF_close (R : DMRange lib val u w η Ω ε n) {g : UGate} (hv : Valid g) (hs : StandardGate g)
    (hang : ∀ a ∈ anglesU g, |a| ≤ 32 ∧ (u + η) * (1 + |a|) + w ≤ ε)
    (ht : ∀ q ∈ UGate.ts g, q < n) (hc : ∀ p ∈ UGate.cs g, p.1 < n) :
    ∃ l : List (MLaunch (Cx F)), g.updateDMF lib n = .ok l ∧ MCloseTo n val ε η l (opOf g) := by
  obtain ⟨hu0, hη0, hε0, he, h4, hu, hη, hs'⟩ := R.facts
  have hn := R.qubits
  have hsize : 1 * 2 ^ n ≤ 2 ^ 64 := by
    rw [one_mul_pow]; exact Nat.pow_le_pow_right (by omega) (by omega)
  have hck : OperandsOK g.operands → checkWithinBounds g.operands n = .ok () := by
    intro ho
    rw [checkWithinBounds_self ho (by omega)]
    rintro x (hx | hx)
    · exact ht x hx
    · obtain ⟨b, hb⟩ := mem_controls.2 hx
      exact hc _ hb
  have hcon := standard_con hv hs hn ht
  unfold opOf at hcon ⊢
  cases g with
  | ident =>
    refine ⟨_, rfl, close_nothing hε0 hη0 fun M => ?_⟩
    obtain ⟨l, hl, hr⟩ := updateDM_valid (g := .ident) hv hs hn ht hc
    cases hl
    exact hr M
  | globalPhase phase o =>
    obtain ⟨ho, h0⟩ := hv
    have hmk := mkOperands_self ho
    have ctx := ctx_of hmk (hck ho) hsize
    refine ⟨_, updM_ok (hck ho) _, ?_⟩
    have hm := ctx.masks
    rw [h0] at hm
    obtain ⟨ha, hεa⟩ := hang phase (by simp [anglesU])
    have e : UGate.ts (.globalPhase phase o) = [] := by
      show maskToVector o.t = []
      rw [h0, maskToVector_zero]
    rw [e, show UGate.cs (.globalPhase phase o) = controls o from rfl, ← ctrlList_self] at hcon ⊢
    exact close_dmGlobalPhase R hm ctx.ctrl ha hεa (matOf (.globalPhase phase o)) rfl hcon
  | one k o =>
    obtain ⟨ho, q, hq⟩ := hv
    have hmk := mkOperands_self ho
    rw [hq] at hmk
    have ctx := ctx_of hmk (hck ho) hsize
    refine ⟨_, updM_ok (hck ho) _, ?_⟩
    rw [show UGate.ts (.one k o) = [q] from hq, show UGate.cs (.one k o) = controls o from rfl, ← ctrlList_self] at hcon ⊢
    exact close_dmGate1 R ctx.masks (isBit_of hmk) ctx.ctrl k hang hcon
  | swap o =>
    obtain ⟨ho, a, b, hab⟩ := hv
    have hmk := mkOperands_self ho
    rw [hab] at hmk
    have ctx := ctx_of hmk (hck ho) hsize
    refine ⟨_, updM_ok (hck ho) _, ?_⟩
    have hta : a < n := ht a (by rw [show UGate.ts (.swap o) = [a, b] from hab]; simp)
    have htb : b < n := ht b (by rw [show UGate.ts (.swap o) = [a, b] from hab]; simp)
    obtain ⟨hne, ha, hb, hbits⟩ := two_bits hmk
    rw [show UGate.ts (.swap o) = [a, b] from hab, show UGate.cs (.swap o) = controls o from rfl, ← ctrlList_self] at hcon ⊢
    rcases Nat.lt_or_gt_of_ne hne with hlt | hlt
    · exact close_dmSwap R hmk (fun x hx => hx.elim (ctx.tlt x) (ctx.clt x)) ctx.masks hlt htb hbits ctx.ctrl swapMat (fun r s _ _ => rfl) hcon
    · rw [swap_symm ha hb hne (U := matOf (.swap o)) (fun r s _ _ => rfl)] at hcon ⊢
      exact close_dmSwap R hmk (fun x hx => hx.elim (ctx.tlt x) (ctx.clt x)) ctx.masks hlt hta (fun i => by rw [hbits, Bool.or_comm]) ctx.ctrl swapMat
        (fun r s _ _ => rfl) hcon
  | ecr g =>
    obtain ⟨ho, a, b, hne, ha, hb, hgt⟩ := hv
    have hmk := mkOperands_self ho
    have ctx := ctx_of hmk (hck ho) hsize
    refine ⟨_, updM_ok (hck ho) _, ?_⟩
    have hm := ctx.masks
    rw [hgt] at hm
    have ema : g.pc = 1#64 <<< a := U64.ext fun i _ => by rw [ha.2, getLsbD_one_shl ha.1]
    have emb : g.pt = 1#64 <<< b := U64.ext fun i _ => by rw [hb.2, getLsbD_one_shl hb.1]
    have hlt : g.pc.toNat < g.pt.toNat ↔ a < b := by
      rw [ema, emb, toNat_one_shl ha.1, toNat_one_shl hb.1]
      exact Nat.pow_lt_pow_iff_right (by omega)
    have hts : ∀ i, i ∈ maskToVector g.o.t ↔ i = a ∨ i = b := by
      intro i
      rw [mem_maskToVector, hgt, BitVec.getLsbD_or, ha.2, hb.2]
      simp [or_comm]
    by_cases hab : a < b
    · have e : UGate.ts (.ecr g) = [a, b] :=
        sorted_ext (maskToVector_sorted _) (by simp [hab]) (by intro i; rw [show UGate.ts (.ecr g) = maskToVector g.o.t from rfl, hts]; simp)
      rw [e, show UGate.cs (.ecr g) = controls g.o from rfl, ← ctrlList_self] at hcon ⊢
      simp only [matOf, if_pos (hlt.2 hab)] at hcon ⊢
      exact close_dmEcr R hm ha hb hne ctx.ctrl hcon
    · have e : UGate.ts (.ecr g) = [b, a] :=
        sorted_ext (maskToVector_sorted _) (by simp; omega)
          (by intro i; rw [show UGate.ts (.ecr g) = maskToVector g.o.t from rfl, hts, or_comm]; simp)
      rw [e, show UGate.cs (.ecr g) = controls g.o from rfl, ← ctrlList_self] at hcon ⊢
      simp only [matOf, if_neg (fun hh => hab (hlt.1 hh))] at hcon ⊢
      rw [← applyMat_flip2 ha.1 hb.1 hne] at hcon ⊢
      exact close_dmEcr R hm ha hb hne ctx.ctrl hcon
  | perm g => exact hs.elim
  | dense g => exact hs.elim
  | sparse g => exact hs.elim
  | pauli g => exact hs.elim
  | pauliRot g angle => exact hs.elim

end
end Verif.Proofs
