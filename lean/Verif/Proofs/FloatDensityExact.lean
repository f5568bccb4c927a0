import Verif.Model.FloatDensity
import Verif.Proofs.FloatExact

/-! # In exact arithmetic the floating-point updates of density matrices are the exact ones -/

namespace Verif.Proofs
open Verif Verif.Model Verif.Spec
open scoped ComplexConjugate

theorem conjC_exactDM (z : ℂ) : conjC z = conj z := rfl

theorem dmEcrMatrixF_exact : (dmEcrMatrixF exactLib : Nat → Nat → ℂ) = dmEcrMatrix := by
  funext i j
  unfold dmEcrMatrixF dmEcrMatrix
  rfl

theorem dmGlobalPhaseF_exact (c v : U64) (a : ℝ) (dim : Nat) :
    (dmGlobalPhaseF exactLib c v a dim : List (MLaunch ℂ)) = dmGlobalPhase c v a dim := rfl

theorem updateDMF_exact (n : Nat) (g : UGate) : (g.updateDMF exactLib n : Res (List (MLaunch ℂ))) = g.updateDM n := by
  cases g with
  | one k o =>
    show (checkWithinBounds o n >>= fun _ => pure (dmGate1F exactLib o (2 ^ n) k)) =
      (checkWithinBounds o n >>= fun _ => pure (dmGate1 o (2 ^ n) k))
    congr 1; funext _; congr 1
    cases k with
    | H =>
      show dmDense1 .. = dmDense1 ..
      congr 1
      have e : (⟨-inverseSqrt2, 0⟩ : ℂ) = -⟨inverseSqrt2, 0⟩ := by apply Complex.ext <;> simp
      unfold hadamardMatrix
      rw [← e]; rfl
    | U1 lam =>
      show dmDiag _ _ _ _ (expC exactLib (⟨0, lam⟩ : ℂ)) _ = _
      rw [expC_exact]; rfl
    | U2 phi lam =>
      show dmDense1 .. = dmDense1 ..
      congr 1
      exact ibmqF_exact _ _ _
    | U3 theta phi lam =>
      show dmDense1 .. = dmDense1 ..
      congr 1
      exact ibmqF_exact _ _ _
    | _ => rfl
  | _ => rfl

end Verif.Proofs
