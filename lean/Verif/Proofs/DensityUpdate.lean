import Verif.Proofs.DensityEcr
import Verif.Proofs.GateBounds

/-! # `update_quantum_state` on density matrices -/

namespace Verif.Proofs
open Verif Verif.Spec Verif.Model
open scoped ComplexConjugate
attribute [-simp] BitVec.getLsbD_eq_getElem

theorem inverseSqrt2_sq : inverseSqrt2 * inverseSqrt2 + inverseSqrt2 * inverseSqrt2 = 1 := by
  have : Real.sqrt 2 * Real.sqrt 2 = 2 := Real.mul_self_sqrt (by norm_num)
  unfold inverseSqrt2
  linear_combination (1 / 2) * this

theorem dmGate1_spec {n q : Nat} {o : Operands} (h : MasksOK 1 n o.t o.c o.v) (hn : n < 32)
    (hq : IsBit o.t q) {cs : List (Nat × Bool)} (hcs : ∀ j : U64, j &&& o.c = o.v ↔ CtrlOK cs j) (k : Gate1)
    (ρ : U64 × U64 → ℂ) :
    MRuns (2 ^ n) (dmGate1 o (2 ^ n) k) ρ (onMatrix (2 ^ n) (applyMat [q] (gate1Mat k) cs) ρ) := by
  cases k with
  | X => exact dmX_spec h hn hq hcs _ (by simp [gate1Mat, pauliX, mat2]) ρ
  | Y => exact dmY_spec h hn hq hcs _ (by
      simp only [gate1Mat, pauliY, mat2]
      refine ⟨?_, ?_, ?_, ?_⟩ <;> apply Complex.ext <;> simp) ρ
  | Z => exact dmDiag_spec h hn hq hcs _ _ _ (by
      simp only [gate1Mat, pauliZ, mat2]
      refine ⟨?_, ?_, ?_, ?_⟩ <;> apply Complex.ext <;> simp) ρ
  | H => exact dmDense1_spec h hn hq hcs _ _ entries_H ρ
  | S => exact dmPhase_spec h hn hq hcs _ (by apply Complex.ext <;> simp) _ (by
      simp only [gate1Mat, mat2]
      refine ⟨?_, ?_, ?_, ?_⟩ <;> apply Complex.ext <;> simp) ρ
  | Sdag => exact dmPhase_spec h hn hq hcs _ (by apply Complex.ext <;> simp) _ (by
      simp only [gate1Mat, mat2]
      refine ⟨?_, ?_, ?_, ?_⟩ <;> apply Complex.ext <;> simp) ρ
  | T => exact dmPhase_spec h hn hq hcs _ (by
      apply Complex.ext
      · simp [inverseSqrt2_sq]
      · simp) _ ⟨by simp [gate1Mat, mat2], by simp [gate1Mat, mat2],
      by simp [gate1Mat, mat2], entries_T⟩ ρ
  | Tdag => exact dmPhase_spec h hn hq hcs _ (by
      apply Complex.ext
      · simp [inverseSqrt2_sq]
      · simp) _ ⟨by simp [gate1Mat, mat2], by simp [gate1Mat, mat2],
      by simp [gate1Mat, mat2], entries_Tdag⟩ ρ
  | SqrtX => exact dmDense1_spec h hn hq hcs _ _ entries_sqrtX ρ
  | SqrtXdag => exact dmDense1_spec h hn hq hcs _ _ entries_sqrtXdag ρ
  | SqrtY => exact dmDense1_spec h hn hq hcs _ _ entries_sqrtY ρ
  | SqrtYdag => exact dmDense1_spec h hn hq hcs _ _ entries_sqrtYdag ρ
  | P0 => exact dmDense1_spec h hn hq hcs _ _ (by simp [gate1Mat, mat2, proj0Matrix]) ρ
  | P1 => exact dmDense1_spec h hn hq hcs _ _ (by simp [gate1Mat, mat2, proj1Matrix]) ρ
  | RX θ => exact dmDense1_spec h hn hq hcs _ _ (entries_rx θ) ρ
  | RY θ => exact dmDense1_spec h hn hq hcs _ _ (entries_ry θ) ρ
  | RZ θ => exact dmDiag_spec h hn hq hcs _ _ _ (entries_rz θ) ρ
  | U1 lam => exact dmDiag_spec h hn hq hcs _ _ _ (by
      simp only [gate1Mat, mat2, expI_eq]
      refine ⟨?_, ?_, ?_, ?_⟩ <;> apply Complex.ext <;> simp) ρ
  | U2 p l => exact dmDense1_spec h hn hq hcs _ _ (entries_u2 p l) ρ
  | U3 θ p l => exact dmDense1_spec h hn hq hcs _ _ (entries_ibmq θ p l) ρ

theorem updM_ok {α : Type} {o : Operands} {n : Nat} (h : checkWithinBounds o n = .ok ()) (x : α) :
    (do checkWithinBounds o n; pure x : Res α) = .ok x := by
  rw [h]; rfl

/-- the classes that have a density-matrix kernel -/
def StandardGate : UGate → Prop
  | .ident | .globalPhase _ _ | .one _ _ | .swap _ | .ecr _ => True
  | _ => False

/-- a valid standard gate within the matrix conjugates by its operator -/
theorem updateDM_valid {g : UGate} (hv : Valid g) (hs : StandardGate g) {n : Nat} (hn : n < 32)
    (ht : ∀ q ∈ UGate.ts g, q < n) (hc : ∀ p ∈ UGate.cs g, p.1 < n) :
    ∃ l, g.updateDM n = .ok l ∧ ∀ ρ, MRuns (2 ^ n) l ρ (onMatrix (2 ^ n) (opOf g) ρ) := by
  have hsize : 1 * 2 ^ n ≤ 2 ^ 64 := by
    rw [one_mul_pow]; exact Nat.pow_le_pow_right (by omega) (by omega)
  have hck : OperandsOK g.operands → checkWithinBounds g.operands n = .ok () := by
    intro ho
    rw [checkWithinBounds_self ho (by omega)]
    rintro x (hx | hx)
    · exact ht x hx
    · obtain ⟨b, hb⟩ := mem_controls.2 hx
      exact hc _ hb
  unfold opOf
  cases g with
  | ident =>
    refine ⟨_, rfl, fun ρ => ?_⟩
    show _ = ρ
    funext p
    unfold onMatrix
    split
    · have e : applyMat (UGate.ts .ident) (matOf .ident) (UGate.cs .ident) = fun ψ => ψ :=
        funext fun ψ => applyMat_one_id (targetsOK_maskToVector _) ψ
      rw [e]
      exact Complex.conj_conj _
    · rfl
  | globalPhase phase o =>
    obtain ⟨ho, h0⟩ := hv
    have hmk := mkOperands_self ho
    have ctx := ctx_of hmk (hck ho) hsize
    refine ⟨_, updM_ok (hck ho) _, fun ρ => ?_⟩
    have hm := ctx.masks
    rw [h0] at hm
    have := dmGlobalPhase_spec hm hn ctx.ctrl phase (matOf (.globalPhase phase o)) rfl ρ
    rw [ctrlList_self] at this
    have e : UGate.ts (.globalPhase phase o) = [] := by
      show maskToVector o.t = []
      rw [h0, maskToVector_zero]
    rw [e]; exact this
  | one k o =>
    obtain ⟨ho, q, hq⟩ := hv
    have hmk := mkOperands_self ho
    rw [hq] at hmk
    have ctx := ctx_of hmk (hck ho) hsize
    refine ⟨_, updM_ok (hck ho) _, fun ρ => ?_⟩
    have := dmGate1_spec ctx.masks hn (isBit_of hmk) ctx.ctrl k ρ
    rw [ctrlList_self] at this
    rw [show UGate.ts (.one k o) = [q] from hq]; exact this
  | swap o =>
    obtain ⟨ho, a, b, hab⟩ := hv
    have hmk := mkOperands_self ho
    rw [hab] at hmk
    have ctx := ctx_of hmk (hck ho) hsize
    refine ⟨_, updM_ok (hck ho) _, fun ρ => ?_⟩
    have hta : a < n := ht a (by rw [show UGate.ts (.swap o) = [a, b] from hab]; simp)
    have htb : b < n := ht b (by rw [show UGate.ts (.swap o) = [a, b] from hab]; simp)
    obtain ⟨hne, ha, hb, hbits⟩ := two_bits hmk
    rw [show UGate.ts (.swap o) = [a, b] from hab, show UGate.cs (.swap o) = controls o from rfl, ← ctrlList_self]
    rcases Nat.lt_or_gt_of_ne hne with hlt | hlt
    · exact dmSwap_spec ctx.masks hn hlt htb hbits ctx.ctrl swapMat (fun r s _ _ => rfl) ρ
    · rw [swap_symm ha hb hne (U := matOf (.swap o)) (fun r s _ _ => rfl)]
      exact dmSwap_spec ctx.masks hn hlt hta (fun i => by rw [hbits, Bool.or_comm]) ctx.ctrl swapMat
        (fun r s _ _ => rfl) ρ
  | ecr g =>
    obtain ⟨ho, a, b, hne, ha, hb, hgt⟩ := hv
    have hmk := mkOperands_self ho
    have ctx := ctx_of hmk (hck ho) hsize
    refine ⟨_, updM_ok (hck ho) _, fun ρ => ?_⟩
    have hm := ctx.masks
    rw [hgt] at hm
    have := dmEcr_spec hm hn ha hb hne ctx.ctrl ρ
    rw [ctrlList_self] at this
    have ema : g.pc = 1#64 <<< a := U64.ext fun i _ => by rw [ha.2, getLsbD_one_shl ha.1]
    have emb : g.pt = 1#64 <<< b := U64.ext fun i _ => by rw [hb.2, getLsbD_one_shl hb.1]
    have hlt : g.pc.toNat < g.pt.toNat ↔ a < b := by
      rw [ema, emb, toNat_one_shl ha.1, toNat_one_shl hb.1]
      exact Nat.pow_lt_pow_iff_right (by omega)
    have hts : ∀ i, i ∈ maskToVector g.o.t ↔ i = a ∨ i = b := by
      intro i
      rw [mem_maskToVector, hgt, BitVec.getLsbD_or, ha.2, hb.2]
      simp [or_comm]
    by_cases hab : a < b
    · have e : UGate.ts (.ecr g) = [a, b] :=
        sorted_ext (maskToVector_sorted _) (by simp [hab]) (by intro i; rw [show UGate.ts (.ecr g) = maskToVector g.o.t from rfl, hts]; simp)
      rw [e]
      simp only [matOf, if_pos (hlt.2 hab)]
      exact this
    · have e : UGate.ts (.ecr g) = [b, a] :=
        sorted_ext (maskToVector_sorted _) (by simp; omega)
          (by intro i; rw [show UGate.ts (.ecr g) = maskToVector g.o.t from rfl, hts, or_comm]; simp)
      rw [e]
      simp only [matOf, if_neg (fun hh => hab (hlt.1 hh))]
      rw [← applyMat_flip2 ha.1 hb.1 hne]
      exact this
  | perm g => exact hs.elim
  | dense g => exact hs.elim
  | sparse g => exact hs.elim
  | pauli g => exact hs.elim
  | pauliRot g angle => exact hs.elim

/-- a valid standard gate on a qubit outside the matrix throws -/
theorem updateDM_throws {g : UGate} (hv : Valid g) (hs : StandardGate g) {n : Nat} (hn : n < 64)
    (h : ¬ ((∀ q ∈ UGate.ts g, q < n) ∧ ∀ p ∈ UGate.cs g, p.1 < n)) : ∃ s, g.updateDM n = .error (.throw s) := by
  have hck : OperandsOK g.operands → ∃ s, checkWithinBounds g.operands n = .error (.throw s) := by
    intro ho
    apply checkWithinBounds_throws hn
    rw [Ne, checkWithinBounds_self ho hn]
    intro hall
    refine h ⟨fun q hq => hall q (Or.inl hq), fun p hp => hall p.1 (Or.inr ?_)⟩
    exact mem_controls.1 ⟨p.2, hp⟩
  have key : ∀ {α : Type} {o : Operands} (x : α), (∃ s, checkWithinBounds o n = .error (.throw s)) →
      ∃ s, (do checkWithinBounds o n; pure x : Res α) = .error (.throw s) := by
    rintro α o x ⟨s, hs⟩
    exact ⟨s, by rw [hs]; rfl⟩
  cases g with
  | ident =>
    refine absurd ⟨fun q hq => ?_, fun p hp => ?_⟩ h
    · rw [show UGate.ts .ident = [] from maskToVector_zero] at hq; cases hq
    · have := mem_controls.1 ⟨p.2, hp⟩
      rw [show (UGate.ident.operands).c = 0 from rfl, maskToVector_zero] at this; cases this
  | globalPhase phase o => exact key _ (hck hv.1)
  | one k o => exact key _ (hck hv.1)
  | swap o => exact key _ (hck hv.1)
  | ecr g => exact key _ (hck hv.1)
  | perm g => exact hs.elim
  | dense g => exact hs.elim
  | sparse g => exact hs.elim
  | pauli g => exact hs.elim
  | pauliRot g angle => exact hs.elim

end Verif.Proofs
