import Verif.Proofs.GateBuild
import Verif.Proofs.GateMatrix
import Verif.Proofs.GateInverse

/-! # Bounds checks of gate objects -/

namespace Verif.Proofs
open Verif Verif.Spec Verif.Model
attribute [-simp] BitVec.getLsbD_eq_getElem

/-- the classes that check their operands against the register -/
def Checked : UGate → Prop
  | .ident => False
  | .pauli _ => False
  | .pauliRot _ _ => False
  | _ => True

theorem checkWithinBounds_throws {o : Operands} {n : Nat} (hn : n < 64) (h : checkWithinBounds o n ≠ .ok ()) :
    ∃ msg, checkWithinBounds o n = .error (.throw msg) := by
  unfold checkWithinBounds at h ⊢
  have hs : shl1 n = .ok (1#64 <<< n) := by unfold shl1; rw [if_pos hn]
  rw [hs] at h ⊢
  simp only [ok_bind] at h ⊢
  split
  · exact ⟨_, rfl⟩
  · rename_i hlt
    rw [if_neg hlt] at h
    exact absurd rfl h

theorem valid_operandsOK {g : UGate} (hv : Valid g) : OperandsOK g.operands := by
  cases g with
  | ident => exact ⟨by simp [UGate.operands], fun i h => by simp [UGate.operands] at h⟩
  | perm g =>
    have h := perm_targets hv.1 hv.2
    exact ⟨by simp only [UGate.operands, h.2.1]; simp, fun i hi => by
      simp only [UGate.operands, h.2.2] at hi; simp at hi⟩
  | globalPhase _ o => exact hv.1
  | one _ o => exact hv.1
  | swap o => exact hv.1
  | ecr g => exact hv.1
  | dense g => exact hv.1
  | sparse g => exact hv.1
  | pauli g => exact hv.1
  | pauliRot g _ => exact hv.1

theorem update_check {g : UGate} (hc : Checked g) {n : Nat} {e : Fault} (L B : Nat)
    (h : checkWithinBounds g.operands n = .error e) : g.update L B n = .error e := by
  cases g with
  | ident => cases hc
  | pauli g => cases hc
  | pauliRot g _ => cases hc
  | globalPhase phase o =>
    simp only [UGate.operands] at h
    simp only [UGate.update, globalPhaseUpdate, h]; rfl
  | one k o =>
    simp only [UGate.operands] at h
    simp only [UGate.update, gate1Update, h]; rfl
  | swap o =>
    simp only [UGate.operands] at h
    simp only [UGate.update, swapUpdate, h]; rfl
  | ecr g =>
    simp only [UGate.operands] at h
    simp only [UGate.update, ecrUpdate, h]; rfl
  | perm g =>
    simp only [UGate.operands] at h
    simp only [UGate.update, permUpdate, h]; rfl
  | dense g =>
    simp only [UGate.operands] at h
    simp only [UGate.update, denseUpdate, h]; rfl
  | sparse g =>
    simp only [UGate.operands] at h
    simp only [UGate.update, sparseUpdate, h]; rfl

/-- an operand outside the register is reported before anything is launched -/
theorem update_throws {g : UGate} (hv : Valid g) (hc : Checked g) {n : Nat} (hn : n < 64) (L B : Nat) {q : Nat}
    (hq : q ∈ UGate.ts g ∨ ∃ b, (q, b) ∈ UGate.cs g) (hge : n ≤ q) : ∃ msg, g.update L B n = .error (.throw msg) := by
  have hne : checkWithinBounds g.operands n ≠ .ok () := by
    intro h
    have := (checkWithinBounds_self (valid_operandsOK hv) hn).1 h q (by
      rcases hq with h | h
      · exact .inl h
      · exact .inr (mem_controls.1 h))
    omega
  obtain ⟨msg, hm⟩ := checkWithinBounds_throws hn hne
  exact ⟨msg, update_check hc L B hm⟩

/-- a run that has to read outside the state is not a correct run -/
theorem not_runs_of_read2 {R : Type} {N : Nat} {ok : U64 → Prop} (body : U64 → Prog U64 R Unit) (hN : 0 < N) (m m' : U64 → R)
    {a b : U64} {k : R → R → Prog U64 R Unit} (hbody : body 0 = .read a (fun x => .read b (k x))) (hb : ¬ ok b) :
    ¬ Runs ok (parallelFor N body) m m' := by
  intro h
  have h0 : parallelFor N body ⟨0, hN⟩ = .read a (fun x => .read b (k x)) := by
    unfold parallelFor; exact hbody
  by_cases ha : ok a
  · have step := Step.read (ok := ok) (parallelFor N body) m ⟨0, hN⟩ a _ h0 ha
    refine h.in_range _ (.single step) ⟨⟨0, hN⟩, b, hb, .inl ⟨k (m a), ?_⟩⟩
    simp [Function.update_self]
  · exact h.in_range _ .refl ⟨⟨0, hN⟩, a, ha, .inl ⟨_, h0⟩⟩

theorem insertZero_zero (m : U64) : insertZero 0 m = 0 := by
  apply U64.ext; intro i hi
  rw [getLsbD_insertZero 0 m i hi]
  simp

/-- Pauli-X on a qubit outside the register touches memory outside the state -/
theorem pauli_out_of_range {n q : Nat} (h1 : 1 ≤ n) (hnq : n ≤ q) (hq : q < 64) (ψ m' : U64 → ℂ) :
    ¬ DRuns (1 * 2 ^ n) (applyPauli 0 0 (1#64 <<< q) 0 1 (1 * 2 ^ n)) ψ m' := by
  have hx : (1#64 <<< q) ≠ 0 := by
    intro h
    have := congrArg (fun m : U64 => m.getLsbD q) h
    simp only [getLsbD_one_shl hq] at this
    simp at this
  unfold applyPauli
  rw [if_neg hx]
  have hN : 0 < (1 * 2 ^ n) >>> (popcount 0 + 1) := by
    rw [popcount_zero, Nat.shiftRight_eq_div_pow]
    apply Nat.div_pos _ (by simp)
    rw [Nat.one_mul]
    exact Nat.pow_le_pow_right (by omega) h1
  show ¬ Runs _ _ _ _
  unfold pauliFlip
  apply not_runs_of_read2 (a := insertZero 0 (0 ||| (1#64 <<< pivotOf (1#64 <<< q))) ||| 0)
    (b := (insertZero 0 (0 ||| (1#64 <<< pivotOf (1#64 <<< q))) ||| 0) ^^^ (1#64 <<< q)) _ hN
  · rfl
  · rw [insertZero_zero]
    have : ((0 : U64) ||| 0) ^^^ (1#64 <<< q) = 1#64 <<< q := by simp
    rw [this]
    unfold InState
    rw [toNat_one_shl hq, Nat.one_mul]
    have := Nat.pow_le_pow_right (show 0 < 2 by omega) hnq
    omega

end Verif.Proofs
