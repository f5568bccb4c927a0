import Verif.Model.Float

/-! # In exact arithmetic the floating-point model is the exact model -/

namespace Verif.Proofs
open Verif Verif.Model Verif.Spec

theorem expC_exact (x : ℝ) : (expC exactLib (⟨0, x⟩ : ℂ) : ℂ) = expI x := by
  unfold expC scaleC expI exactLib
  rw [Complex.exp_eq_exp_re_mul_sin_add_cos]
  apply Complex.ext <;> simp [← Complex.ofReal_cos, ← Complex.ofReal_sin]

theorem ibmqF_exact (a b c : ℝ) : (ibmqF exactLib a b c : M22 ℂ) = ibmqMatrix a b c := by
  unfold ibmqF ibmqMatrix
  simp only [cplx_mk, expC_exact]
  rfl

theorem phaseM90F_exact : (phaseM90F : Nat → ℂ) = phaseM90 := by
  funext k
  unfold phaseM90F phaseM90 imagUnit
  have h : ∀ i : Fin 4, (![Cplx.ofParts 1 0, Cplx.ofParts 0 (-1), Cplx.ofParts (-1) 0, Cplx.ofParts 0 1] : Fin 4 → ℂ) i =
      (![1, -⟨0, 1⟩, -1, ⟨0, 1⟩] : Fin 4 → ℂ) i := by
    intro i
    fin_cases i <;> apply Complex.ext <;> simp
  exact h _

theorem cosC_exact (z : ℂ) : (cosC exactLib z : ℂ) = Complex.cos z := by
  rw [Complex.cos_eq]
  unfold cosC exactLib
  apply Complex.ext
  · simp [← Complex.ofReal_cos, ← Complex.ofReal_sin, ← Complex.ofReal_cosh, ← Complex.ofReal_sinh]
  · simp [← Complex.ofReal_cos, ← Complex.ofReal_sin, ← Complex.ofReal_cosh, ← Complex.ofReal_sinh]

theorem sinC_exact (z : ℂ) : (sinC exactLib z : ℂ) = Complex.sin z := by
  rw [Complex.sin_eq]
  unfold sinC exactLib
  apply Complex.ext
  · simp [← Complex.ofReal_cos, ← Complex.ofReal_sin, ← Complex.ofReal_cosh, ← Complex.ofReal_sinh]
  · simp [← Complex.ofReal_cos, ← Complex.ofReal_sin, ← Complex.ofReal_cosh, ← Complex.ofReal_sinh]

theorem castC_exact (z : ℂ) : (castC exactLib z : ℂ) = z := rfl

/-- for `F = ℝ`, `R = ℂ` and exact library functions the floating-point model is the exact model -/
theorem updateF_exact (L B n : Nat) (g : UGate) :
    (g.updateF exactLib L B n : Res (Device ℂ)) = g.update L B n := by
  cases g with
  | ident => rfl
  | globalPhase phase o => rfl
  | one k o =>
    show _ = gate1Update L B n k o
    show (checkWithinBounds o n >>= fun _ => pure (gate1KernelF exactLib L n o (B * 2 ^ n) k)) =
      (checkWithinBounds o n >>= fun _ => pure (gate1Kernel L n o (B * 2 ^ n) k))
    congr 1; funext _; congr 1
    cases k with
    | H =>
      show dense1 .. = dense1 ..
      congr 1
      have e : (⟨-inverseSqrt2, 0⟩ : ℂ) = -⟨inverseSqrt2, 0⟩ := by apply Complex.ext <;> simp
      unfold hadamardMatrix
      rw [← e]; rfl
    | U1 lam =>
      show Device.par _ (phaseGate _ _ _ (expC exactLib (⟨0, lam⟩ : ℂ)) _) = _
      rw [expC_exact]; rfl
    | U2 phi lam =>
      show dense1 .. = dense1 ..
      congr 1
      exact ibmqF_exact _ _ _
    | U3 theta phi lam =>
      show dense1 .. = dense1 ..
      congr 1
      exact ibmqF_exact _ _ _
    | _ => rfl
  | swap o => rfl
  | ecr g => rfl
  | perm g => rfl
  | dense g => rfl
  | sparse g =>
    show _ = sparseUpdate B n g.mat g.o
    show (checkWithinBounds g.o n >>= fun _ => sparseKernel n g.o.t g.o.c g.o.v
        { g.mat with vals := g.mat.vals.map (castC exactLib) } (B * 2 ^ n)) =
      (checkWithinBounds g.o n >>= fun _ => sparseKernel n g.o.t g.o.c g.o.v g.mat (B * 2 ^ n))
    have : g.mat.vals.map (castC (R := ℂ) exactLib) = g.mat.vals := by
      rw [show (castC exactLib : ℂ → ℂ) = id from funext castC_exact, List.map_id]
    rw [this]
  | pauli g =>
    show pure (applyPauliF _ _ _ _ _ _) = pure (applyPauli _ _ _ _ _ _)
    unfold applyPauliF applyPauli
    rw [phaseM90F_exact, castC_exact]
  | pauliRot g angle =>
    show pure (applyPauliRotationF _ _ _ _ _ _ _ _) = pure (applyPauliRotation _ _ _ _ _ _ _)
    unfold applyPauliRotationF applyPauliRotation
    have e : (halfC exactLib (scaleC (exactLib.cast angle) (castC exactLib g.p.coef) : ℂ) : ℂ) = angle * g.p.coef / 2 := by
      apply Complex.ext
      · simp [halfC, scaleC, castC, exactLib]
      · simp [halfC, scaleC, castC, exactLib]
    simp only [e, cosC_exact, sinC_exact, phaseM90F_exact]
    rfl

end Verif.Proofs
