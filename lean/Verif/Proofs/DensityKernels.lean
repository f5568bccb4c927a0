import Verif.Proofs.DensityBlock

/-! # Each density-matrix kernel conjugates by the operator of its matrix -/

namespace Verif.Proofs
open Verif Verif.Spec Verif.Model
open scoped ComplexConjugate
attribute [-simp] BitVec.getLsbD_eq_getElem

section
variable {n q : Nat} {t c v : U64} {cs : List (Nat × Bool)}

theorem one_mul_pow (n : Nat) : 1 * 2 ^ n = 2 ^ n := Nat.one_mul _

theorem v_zero (h : MasksOK 1 n t 0 v) : v = 0 := by
  apply U64.ext; intro i _
  cases hv : v.getLsbD i with
  | false => simp
  | true => have := h.sub i hv; simp at this

theorem workItems_le (dim : Nat) (m : U64) : workItems dim m ≤ dim := by
  unfold workItems; rw [Nat.shiftRight_eq_div_pow]; exact Nat.div_le_self _ _

theorem bit_lt (h : MasksOK 1 n t c v) (hq : IsBit t q) : q < n := by
  by_contra hc
  have := h.t_high (i := q) (by omega)
  rw [hq.2] at this
  simp at this

theorem ctrl_nil (h : ∀ j : U64, j &&& 0 = 0 ↔ CtrlOK cs j) (ts : List Nat) (U : Nat → Nat → ℂ) :
    applyMat ts U cs = applyMat ts U [] :=
  applyMat_ctrl_congr fun j => ⟨fun _ _ hp => absurd hp List.not_mem_nil, fun _ => (h j).1 BitVec.and_zero⟩

/-- a mask with one bit is that bit -/
theorem isBit_of_popcount (h : popcount c = 1) : ∃ qc, IsBit c qc := by
  rw [← length_maskToVector, List.length_eq_one_iff] at h
  obtain ⟨qc, h⟩ := h
  have hm : ∀ i, i ∈ maskToVector c ↔ i = qc := by intro i; rw [h]; simp
  refine ⟨qc, maskToVector_lt ((hm qc).2 rfl), fun i => ?_⟩
  have := hm i
  rw [mem_maskToVector] at this
  cases hc : c.getLsbD i <;> simp_all

theorem ex_self {k : Nat} (r : Fin k → U64) (i : Fin k) : (∃ j, r i = r j) = True := eq_true ⟨i, rfl⟩

/-- what a kernel does on a one-target block -/
structure OnBlock2 (g : (Fin 2 → U64) → (Fin 2 → U64) → Prog (U64 × U64) ℂ Unit) (U : Nat → Nat → ℂ) : Prop where
  within : ∀ r c, (g r c).Within (fun p => (∃ i, p.1 = r i) ∧ ∃ j, p.2 = c j)
  exec : ∀ (r c : Fin 2 → U64) M, Function.Injective r → Function.Injective c → ∀ i j,
      (g r c).exec M (r i, c j) = ∑ y, conj (blockMat2 U j y) * ∑ x, blockMat2 U i x * M (r x, c y)

theorem block2_spec (h : MasksOK 1 n t 0 0) (hn : n < 32) (hq : IsBit t q) {g : (Fin 2 → U64) → (Fin 2 → U64) → Prog (U64 × U64) ℂ Unit}
    {U : Nat → Nat → ℂ} (hg : OnBlock2 g U) (hcs : ∀ j : U64, j &&& 0 = 0 ↔ CtrlOK cs j) (M : U64 × U64 → ℂ) :
    MRuns (2 ^ n) [pairFor (workItems (2 ^ n) t) (workItems (2 ^ n) t)
      (fun ir ic => g (pairCells t (insertZero ir t)) (pairCells t (insertZero ic t)))] M (onMatrix (2 ^ n) (applyMat [q] U cs) M) := by
  rw [ctrl_nil hcs]
  exact block_spec h hn (applyMat [q] U []) (pairCells t) (blockMat2 U) g M (fun b hb => pairCells_iff hq hb)
    (fun b hb => pairCells_inj hq hb) (fun b hb ψ i => pairCells_op hq hb U ψ i) hg.within (fun r c hr hc => hg.exec r c M hr hc)

theorem dense2_block (M : M22 ℂ) (U : Nat → Nat → ℂ) (hU : U 0 0 = M.m00 ∧ U 0 1 = M.m01 ∧ U 1 0 = M.m10 ∧ U 1 1 = M.m11) :
    OnBlock2 (fun r c => do
      let v00 ← Prog.load (r 0, c 0)
      let v01 ← Prog.load (r 0, c 1)
      let v10 ← Prog.load (r 1, c 0)
      let v11 ← Prog.load (r 1, c 1)
      let ext (y x : Nat) : ℂ := M.at (y >>> 1) (x >>> 1) * conj (M.at (y &&& 1) (x &&& 1))
      Prog.store (r 0, c 0) (ext 0 0 * v00 + ext 0 1 * v01 + ext 0 2 * v10 + ext 0 3 * v11)
      Prog.store (r 0, c 1) (ext 1 0 * v00 + ext 1 1 * v01 + ext 1 2 * v10 + ext 1 3 * v11)
      Prog.store (r 1, c 0) (ext 2 0 * v00 + ext 2 1 * v01 + ext 2 2 * v10 + ext 2 3 * v11)
      Prog.store (r 1, c 1) (ext 3 0 * v00 + ext 3 1 * v01 + ext 3 2 * v10 + ext 3 3 * v11)) U := by
  obtain ⟨u1, u2, u3, u4⟩ := hU
  constructor
  · intro r c
    simp [Prog.store_def, Prog.Within, ex_self]
  · intro r c m hr hc i j
    rw [Fin.sum_univ_two, Fin.sum_univ_two, Fin.sum_univ_two]
    fin_cases i <;> fin_cases j <;>
      simp [Prog.store_def, Prog.exec, Function.update_apply, hr.eq_iff, hc.eq_iff, blockMat2, M22.at, mat2, u1, u2, u3, u4] <;> ring

theorem diag2_block (d0 d1 : ℂ) (U : Nat → Nat → ℂ) (hU : U 0 0 = d0 ∧ U 0 1 = 0 ∧ U 1 0 = 0 ∧ U 1 1 = d1) :
    OnBlock2 (fun r c => do
      mulAt (r 0, c 0) (d0 * conj d0)
      mulAt (r 0, c 1) (d0 * conj d1)
      mulAt (r 1, c 0) (d1 * conj d0)
      mulAt (r 1, c 1) (d1 * conj d1)) U := by
  obtain ⟨u1, u2, u3, u4⟩ := hU
  constructor
  · intro r c
    simp [mulAt, Prog.store_def, Prog.Within, ex_self]
  · intro r c m hr hc i j
    rw [Fin.sum_univ_two, Fin.sum_univ_two, Fin.sum_univ_two]
    fin_cases i <;> fin_cases j <;>
      simp [mulAt, Prog.store_def, Prog.exec, Function.update_apply, hr.eq_iff, hc.eq_iff, blockMat2, u1, u2, u3, u4] <;> ring

theorem phase2_block (p : ℂ) (hp : p * conj p = 1) (U : Nat → Nat → ℂ) (hU : U 0 0 = 1 ∧ U 0 1 = 0 ∧ U 1 0 = 0 ∧ U 1 1 = p) :
    OnBlock2 (fun r c => do
      mulAt (r 0, c 1) (conj p)
      mulAt (r 1, c 0) p) U := by
  obtain ⟨u1, u2, u3, u4⟩ := hU
  constructor
  · intro r c
    simp [mulAt, Prog.store_def, Prog.Within, ex_self]
  · intro r c m hr hc i j
    rw [Fin.sum_univ_two, Fin.sum_univ_two, Fin.sum_univ_two]
    fin_cases i <;> fin_cases j <;>
      simp [mulAt, Prog.store_def, Prog.exec, Function.update_apply, hr.eq_iff, hc.eq_iff, blockMat2, u1, u2, u3, u4]
    · ring
    · ring
    · linear_combination (-(m (r 1, c 1))) * hp

theorem x2_block (U : Nat → Nat → ℂ) (hU : U 0 0 = 0 ∧ U 0 1 = 1 ∧ U 1 0 = 1 ∧ U 1 1 = 0) :
    OnBlock2 (fun r c => do
      exchangeAt (r 0, c 0) (r 1, c 1)
      exchangeAt (r 0, c 1) (r 1, c 0)) U := by
  obtain ⟨u1, u2, u3, u4⟩ := hU
  constructor
  · intro r c
    simp [exchangeAt, Prog.store_def, Prog.Within, ex_self]
  · intro r c m hr hc i j
    rw [Fin.sum_univ_two, Fin.sum_univ_two, Fin.sum_univ_two]
    fin_cases i <;> fin_cases j <;>
      simp [exchangeAt, Prog.store_def, Prog.exec, Function.update_apply, hr.eq_iff, hc.eq_iff, blockMat2, u1, u2, u3, u4]

theorem y2_block (U : Nat → Nat → ℂ) (hU : U 0 0 = 0 ∧ U 0 1 = ⟨0, -1⟩ ∧ U 1 0 = ⟨0, 1⟩ ∧ U 1 1 = 0) :
    OnBlock2 (fun r c => do
      let v00 ← Prog.load (r 0, c 0)
      let v01 ← Prog.load (r 0, c 1)
      let v10 ← Prog.load (r 1, c 0)
      let v11 ← Prog.load (r 1, c 1)
      Prog.store (r 0, c 0) v11
      Prog.store (r 0, c 1) (-v10)
      Prog.store (r 1, c 0) (-v01)
      Prog.store (r 1, c 1) v00) U := by
  obtain ⟨u1, u2, u3, u4⟩ := hU
  constructor
  · intro r c
    simp [Prog.store_def, Prog.Within, ex_self]
  · intro r c m hr hc i j
    rw [Fin.sum_univ_two, Fin.sum_univ_two, Fin.sum_univ_two]
    fin_cases i <;> fin_cases j <;>
      simp [Prog.store_def, Prog.exec, Function.update_apply, hr.eq_iff, hc.eq_iff, blockMat2, u1, u2, u3, u4] <;>
      apply Complex.ext <;> simp

end
end Verif.Proofs
