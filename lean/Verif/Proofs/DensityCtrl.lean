import Verif.Proofs.DensityKernels

/-! # Density-matrix kernels with one control: what they do on a block of sixteen cells -/

namespace Verif.Proofs
open Verif Verif.Spec Verif.Model
open scoped ComplexConjugate
attribute [-simp] BitVec.getLsbD_eq_getElem

section
variable {n q : Nat} {t c v : U64} {cs : List (Nat × Bool)}

/-- what a kernel does on a block of one target and one control: indices 0 and 1 have the control active -/
structure OnBlock4 (g : (Fin 4 → U64) → (Fin 4 → U64) → Prog (U64 × U64) ℂ Unit) (U : Nat → Nat → ℂ) : Prop where
  within : ∀ r c, (g r c).Within (fun p => (∃ i, p.1 = r i) ∧ ∃ j, p.2 = c j)
  exec : ∀ (r c : Fin 4 → U64) M, Function.Injective r → Function.Injective c → ∀ i j,
      (g r c).exec M (r i, c j) = ∑ y, conj (ctrlMat4 U j y) * ∑ x, ctrlMat4 U i x * M (r x, c y)

theorem block4_spec (h : MasksOK 1 n t c v) (hn : n < 32) (hq : IsBit t q) (hp : popcount c = 1)
    {g : (Fin 4 → U64) → (Fin 4 → U64) → Prog (U64 × U64) ℂ Unit}
    {U : Nat → Nat → ℂ} (hg : OnBlock4 g U) (hcs : ∀ j : U64, j &&& c = v ↔ CtrlOK cs j) (M : U64 × U64 → ℂ) :
    MRuns (2 ^ n) [pairFor (workItems (2 ^ n) (t ||| c)) (workItems (2 ^ n) (t ||| c))
      (fun ir ic => g (quadCells t (v &&& c) (c ^^^ (v &&& c)) (insertZero ir (c ||| t)))
        (quadCells t (v &&& c) (c ^^^ (v &&& c)) (insertZero ic (c ||| t))))] M (onMatrix (2 ^ n) (applyMat [q] U cs) M) := by
  obtain ⟨qc, hqc⟩ := isBit_of_popcount hp
  have hne : q ≠ qc := by
    rintro rfl
    have := h.disj q
    rw [hq.2, hqc.2] at this
    simp at this
  have hvb : ∀ i, v.getLsbD i = (decide (i = qc) && v.getLsbD qc) := by
    intro i
    by_cases e : i = qc
    · simp [e]
    · have := h.sub i
      rw [hqc.2] at this
      cases hvi : v.getLsbD i
      · simp [e]
      · simp [hvi, e] at this
  have hact : v &&& c = if v.getLsbD qc then c else 0 := by
    apply U64.ext; intro i _
    rw [BitVec.getLsbD_and, hqc.2, hvb i]
    cases hvq : v.getLsbD qc
    · simp
    · simp [hqc.2]
  have hina : c ^^^ (v &&& c) = if v.getLsbD qc then 0 else c := by
    rw [hact]
    cases hvq : v.getLsbD qc
    · apply U64.ext; intro i _; simp
    · apply U64.ext; intro i _; simp
  rw [hina, hact, BitVec.or_comm c t]
  have hcs' : ∀ j, CtrlOK cs j ↔ j.getLsbD qc = v.getLsbD qc := by
    intro j
    rw [← hcs]
    constructor
    · intro e
      have e' := congrArg (fun x => x.getLsbD qc) e
      simpa [BitVec.getLsbD_and, hqc.2] using e'
    · intro e
      apply U64.ext; intro i _
      rw [BitVec.getLsbD_and, hqc.2, hvb i]
      by_cases hi : i = qc
      · subst hi; simp [e]
      · simp [hi]
  have h' : MasksOK 1 n (t ||| c) 0 0 := by
    refine ⟨h.size, by simpa using h.fits, ?_, ?_⟩
    · intro i; simp
    · intro i; simp
  exact block_spec h' hn (applyMat [q] U cs) (quadCells t _ _) (ctrlMat4 U) g M (fun b hb => quadCells_iff hq hqc hne hb)
    (fun b hb => quadCells_inj hq hqc hne hb) (fun b hb ψ i => quadCells_op hq hqc hne hb hcs' U ψ i) hg.within
    (fun r c hr hc => hg.exec r c M hr hc)

theorem diag4_block (d0 d1 : ℂ) (U : Nat → Nat → ℂ) (hU : U 0 0 = d0 ∧ U 0 1 = 0 ∧ U 1 0 = 0 ∧ U 1 1 = d1) :
    OnBlock4 (fun r c => do
      mulAt (r 2, c 0) (conj d0)
      mulAt (r 2, c 1) (conj d1)
      mulAt (r 3, c 0) (conj d0)
      mulAt (r 3, c 1) (conj d1)
      mulAt (r 0, c 2) d0
      mulAt (r 0, c 3) d0
      mulAt (r 1, c 2) d1
      mulAt (r 1, c 3) d1
      mulAt (r 0, c 0) (d0 * conj d0)
      mulAt (r 0, c 1) (d0 * conj d1)
      mulAt (r 1, c 0) (d1 * conj d0)
      mulAt (r 1, c 1) (d1 * conj d1)) U := by
  obtain ⟨u1, u2, u3, u4⟩ := hU
  constructor
  · intro r c
    simp [mulAt, Prog.store_def, Prog.Within, ex_self]
  · intro r c m hr hc i j
    rw [Fin.sum_univ_four, Fin.sum_univ_four, Fin.sum_univ_four, Fin.sum_univ_four, Fin.sum_univ_four]
    fin_cases i <;> fin_cases j <;>
      simp [mulAt, Prog.store_def, Prog.exec, Function.update_apply, hr.eq_iff, hc.eq_iff, ctrlMat4, u1, u2, u3, u4] <;> ring

theorem phase4_block (p : ℂ) (hp : p * conj p = 1) (U : Nat → Nat → ℂ) (hU : U 0 0 = 1 ∧ U 0 1 = 0 ∧ U 1 0 = 0 ∧ U 1 1 = p) :
    OnBlock4 (fun r c => do
      mulAt (r 1, c 2) p
      mulAt (r 1, c 3) p
      mulAt (r 1, c 0) p
      mulAt (r 2, c 1) (conj p)
      mulAt (r 3, c 1) (conj p)
      mulAt (r 0, c 1) (conj p)) U := by
  obtain ⟨u1, u2, u3, u4⟩ := hU
  constructor
  · intro r c
    simp [mulAt, Prog.store_def, Prog.Within, ex_self]
  · intro r c m hr hc i j
    rw [Fin.sum_univ_four, Fin.sum_univ_four, Fin.sum_univ_four, Fin.sum_univ_four, Fin.sum_univ_four]
    fin_cases i <;> fin_cases j <;>
      simp [mulAt, Prog.store_def, Prog.exec, Function.update_apply, hr.eq_iff, hc.eq_iff, ctrlMat4, u1, u2, u3, u4] <;>
      first
        | ring1
        | linear_combination (-(m (r 1, c 1))) * hp

theorem x4_block (U : Nat → Nat → ℂ) (hU : U 0 0 = 0 ∧ U 0 1 = 1 ∧ U 1 0 = 1 ∧ U 1 1 = 0) :
    OnBlock4 (fun r c => do
      exchangeAt (r 2, c 0) (r 2, c 1)
      exchangeAt (r 3, c 0) (r 3, c 1)
      exchangeAt (r 0, c 2) (r 1, c 2)
      exchangeAt (r 0, c 3) (r 1, c 3)
      exchangeAt (r 0, c 0) (r 1, c 1)
      exchangeAt (r 0, c 1) (r 1, c 0)) U := by
  obtain ⟨u1, u2, u3, u4⟩ := hU
  constructor
  · intro r c
    simp [exchangeAt, Prog.store_def, Prog.Within, ex_self]
  · intro r c m hr hc i j
    rw [Fin.sum_univ_four, Fin.sum_univ_four, Fin.sum_univ_four, Fin.sum_univ_four, Fin.sum_univ_four]
    fin_cases i <;> fin_cases j <;>
      simp [exchangeAt, Prog.store_def, Prog.exec, Function.update_apply, hr.eq_iff, hc.eq_iff, ctrlMat4, u1, u2, u3, u4]

end
end Verif.Proofs
