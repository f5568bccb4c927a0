import Verif.Proofs.FloatRead
import Verif.Proofs.StateVec
import Verif.Proofs.Operator
import Verif.Proofs.FloatExact

/-! # The reductions of `Verif.Model.FloatReduce` with exact numbers -/

namespace Verif.Proofs
open Verif Verif.Spec Verif.Model
attribute [-simp] BitVec.getLsbD_eq_getElem

theorem readSqF_exact (dim : Nat) (ψ : U64 → ℂ) (i : U64) : (readSqF dim ψ i : Res ℝ) = readSq dim ψ i := by
  unfold readSqF readSq
  congr 1

theorem conjC_exact (z : ℂ) : (conjC (F := ℝ) z : ℂ) = (starRingEnd ℂ) z := rfl

theorem timesC_exact (z : ℂ) (a : ℝ) : timesC z a = z * (a : ℂ) := by
  apply Complex.ext
  · show z.re * a = _; simp
  · show z.im * a = _; simp

theorem phase90F_exact (k : Nat) : (phase90F (F := ℝ) k : ℂ) = phase90 k := by
  unfold phase90F phase90
  generalize Fin.ofNat 4 k = t
  fin_cases t <;> apply Complex.ext <;> simp [Cplx.ofParts, imagUnit]

theorem expItemF_exact (dim : Nat) (ψ : U64 → ℂ) (p : PauliOp) (i : U64) : expItemF exactLib dim ψ p i = expItem dim ψ p i := by
  unfold expItemF expItem
  simp only [conjC_exact, timesC_exact, castC_exact, phase90F_exact]
  rfl

/-- any order of the additions gives the sum -/
theorem rangeReduction_exact' {R : Type} [AddCommMonoid R] {N : Nat} {f : U64 → Res R} {P : R} (h : reduceSum N f = .ok P) (r : Res R) :
    RangeReduction N f r ↔ r = .ok P := by
  obtain ⟨g, hg, -⟩ := reduceSum_inv h
  rw [rangeReduction_exact hg, h]

end Verif.Proofs
