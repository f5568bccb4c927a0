import Verif.Spec.Pauli
import Verif.Proofs.PauliMatrix

/-! # Tensor products; an operator determines its matrix -/

namespace Verif.Proofs
open Verif Verif.Spec Verif.Model
attribute [-simp] BitVec.getLsbD_eq_getElem

theorem sum_range_two_mul {S : Type} [AddCommMonoid S] (N : Nat) (f : Nat → S) :
    ∑ s ∈ Finset.range (2 * N), f s = ∑ t ∈ Finset.range N, (f (2 * t) + f (2 * t + 1)) := by
  induction N with
  | zero => simp
  | succ N ih =>
    rw [show 2 * (N + 1) = 2 * N + 1 + 1 from by ring, Finset.sum_range_succ, Finset.sum_range_succ, ih,
      Finset.sum_range_succ, add_assoc]

theorem applyMat_nil (ts : List Nat) (U : Nat → Nat → ℂ) (ψ : U64 → ℂ) (j : U64) :
    applyMat ts U [] ψ j = ∑ s ∈ Finset.range (2 ^ ts.length), U (getBits j ts) s * ψ (putBits j ts s) := by
  unfold applyMat
  rw [if_pos (by simp [CtrlOK])]

theorem applyMat_cons {q : Nat} {qs : List Nat} (h : TargetsOK (q :: qs)) (A T : Nat → Nat → ℂ) (ψ : U64 → ℂ) :
    applyMat (q :: qs) (fun r s => A (r % 2) (s % 2) * T (r / 2) (s / 2)) [] ψ =
      applyMat [q] A [] (applyMat qs T [] ψ) := by
  have hq : q < 64 := h.lt q (by simp)
  have hnd := List.nodup_cons.1 h.nodup
  funext j
  have hg : ∀ b, getBits (setBit j q b) qs = getBits j qs := by
    intro b
    apply getBits_congr
    intro p hp
    rw [getLsbD_setBit _ hq, if_neg]
    rintro rfl; exact hnd.1 hp
  have hr : ((j.getLsbD q).toNat + 2 * getBits j qs) % 2 = (j.getLsbD q).toNat ∧
      ((j.getLsbD q).toNat + 2 * getBits j qs) / 2 = getBits j qs := by
    have := Bool.toNat_le (j.getLsbD q)
    omega
  simp only [applyMat_nil]
  simp only [List.length_cons, List.length_nil, getBits, putBits, Nat.zero_add, pow_one]
  rw [show 2 ^ (qs.length + 1) = 2 * 2 ^ qs.length from by ring, sum_range_two_mul, hr.1, hr.2]
  rw [Finset.sum_range_succ, Finset.sum_range_one, hg, hg, Finset.mul_sum, Finset.mul_sum,
    ← Finset.sum_add_distrib]
  apply Finset.sum_congr rfl
  intro t _
  have e1 : (2 * t) % 2 = 0 := by omega
  have e2 : (2 * t) / 2 = t := by omega
  have e3 : (2 * t + 1) % 2 = 1 := by omega
  have e4 : (2 * t + 1) / 2 = t := by omega
  have e5 : (2 * t).testBit 0 = Nat.testBit 0 0 := by rw [Nat.testBit_zero, e1]; rfl
  have e6 : (2 * t + 1).testBit 0 = Nat.testBit 1 0 := by rw [Nat.testBit_zero, e3]; rfl
  rw [e1, e2, e3, e4, e5, e6]
  simp only [Nat.mul_zero, Nat.add_zero]
  ring

/-- the tensor product acts like the one-qubit matrices one after another -/
theorem applyMat_pauliString (l : List (Nat × Pauli1)) (h : TargetsOK (l.map Prod.fst)) (ψ : U64 → ℂ) :
    applyMat (l.map Prod.fst) (pauliStringMat (l.map Prod.snd)) [] ψ = applyPaulis l ψ := by
  induction l with
  | nil =>
    funext j
    unfold applyMat
    rw [if_pos (by simp [CtrlOK])]
    simp [pauliStringMat, applyPaulis, putBits]
  | cons a l ih =>
    obtain ⟨q, P⟩ := a
    have hnd := List.nodup_cons.1 h.nodup
    simp only [List.map_cons, pauliStringMat, applyPaulis]
    rw [applyMat_cons h, ih ⟨hnd.2, fun p hp => h.lt p (by simp only [List.map_cons, List.mem_cons]; exact .inr hp)⟩]

/-- the matrix is determined by the operator -/
theorem applyMat_injective {ts : List Nat} (h : TargetsOK ts) {U V : Nat → Nat → ℂ}
    (hUV : ∀ ψ, applyMat ts U [] ψ = applyMat ts V [] ψ) {r s : Nat} (hr : r < 2 ^ ts.length)
    (hs : s < 2 ^ ts.length) : U r s = V r s := by
  have key : ∀ W : Nat → Nat → ℂ,
      applyMat ts W [] (fun j => if j = putBits 0 ts s then 1 else 0) (putBits 0 ts r) = W r s := by
    intro W
    unfold applyMat
    rw [if_pos (by simp [CtrlOK]), getBits_putBits _ h hr, Finset.sum_eq_single s]
    · rw [putBits_putBits _ h]
      dsimp only
      rw [if_pos rfl, mul_one]
    · intro x hx hne
      rw [putBits_putBits _ h]
      dsimp only
      rw [if_neg, mul_zero]
      intro e
      apply hne
      have := congrArg (fun j => getBits j ts) e
      rwa [getBits_putBits _ h (Finset.mem_range.1 hx), getBits_putBits _ h hs] at this
    · intro hn
      exact absurd (Finset.mem_range.2 hs) hn
  rw [← key U, ← key V, hUV]

/-- the letters of an operator on its qubits in increasing order -/
def pauliLetters (p : PauliOp) : List (Nat × Pauli1) :=
  p.targetList.map (fun q => (q, letter (p.x.getLsbD q) (p.z.getLsbD q)))

theorem pauliLetters_fst (p : PauliOp) : (pauliLetters p).map Prod.fst = p.targetList := by
  unfold pauliLetters; rw [List.map_map]; simp [Function.comp_def]

theorem strOK_letters (p : PauliOp) : StrOK (pauliLetters p) := by
  have h := targetsOK_maskToVector (p.x ||| p.z)
  constructor
  · unfold pauliLetters
    rw [List.pairwise_map]
    exact h.nodup.imp (fun h => .inr (.inr h))
  · intro a ha _
    unfold pauliLetters at ha
    rw [List.mem_map] at ha
    obtain ⟨q, hq, rfl⟩ := ha
    exact h.lt q hq

theorem xMask_letters (p : PauliOp) : xMask (pauliLetters p) = p.x := by
  apply U64.ext; intro i hi
  rw [getLsbD_xMask (strOK_letters p), Bool.eq_iff_iff, List.any_eq_true]
  unfold pauliLetters
  constructor
  · rintro ⟨a, ha, hh⟩
    rw [List.mem_map] at ha
    obtain ⟨q, hq, rfl⟩ := ha
    simp only [hasX_letter, Bool.and_eq_true, decide_eq_true_eq] at hh
    rw [← hh.2]; exact hh.1
  · intro hx
    exact ⟨_, List.mem_map.2 ⟨i, mem_targetList.2 (.inl hx), rfl⟩, by simp [hasX_letter, hx]⟩

theorem zMask_letters (p : PauliOp) : zMask (pauliLetters p) = p.z := by
  apply U64.ext; intro i hi
  rw [getLsbD_zMask (strOK_letters p), Bool.eq_iff_iff, List.any_eq_true]
  unfold pauliLetters
  constructor
  · rintro ⟨a, ha, hh⟩
    rw [List.mem_map] at ha
    obtain ⟨q, hq, rfl⟩ := ha
    simp only [hasZ_letter, Bool.and_eq_true, decide_eq_true_eq] at hh
    rw [← hh.2]; exact hh.1
  · intro hx
    exact ⟨_, List.mem_map.2 ⟨i, mem_targetList.2 (.inr hx), rfl⟩, by simp [hasZ_letter, hx]⟩

theorem applyPaulis_letters (p : PauliOp) (ψ : U64 → ℂ) : applyPaulis (pauliLetters p) ψ = pauliAct p.x p.z ψ := by
  rw [applyPaulis_eq (strOK_letters p), xMask_letters, zMask_letters]

/-- the matrix of a Pauli operator acts as the operator -/
theorem applyMat_pauli (p : PauliOp) (ψ : U64 → ℂ) :
    applyMat p.targetList (pauliStringMat ((pauliLetters p).map Prod.snd)) [] ψ = pauliAct p.x p.z ψ := by
  have h := applyMat_pauliString (pauliLetters p) (by rw [pauliLetters_fst]; exact targetsOK_maskToVector _) ψ
  rw [pauliLetters_fst] at h
  rw [h, applyPaulis_letters]

/-- controls: the matrix acts where they hold -/
theorem applyMat_ctrl {ts : List Nat} (U : Nat → Nat → ℂ) (cs : List (Nat × Bool)) (ψ : U64 → ℂ) (j : U64) :
    applyMat ts U cs ψ j = if CtrlOK cs j then applyMat ts U [] ψ j else ψ j := by
  unfold applyMat
  by_cases h : CtrlOK cs j
  · rw [if_pos h, if_pos h, if_pos (by simp [CtrlOK])]
  · rw [if_neg h, if_neg h]

theorem applyMat_scale {ts : List Nat} (c : ℂ) (U : Nat → Nat → ℂ) (ψ : U64 → ℂ) (j : U64) :
    applyMat ts (fun r s => c * U r s) [] ψ j = c * applyMat ts U [] ψ j := by
  have hc : CtrlOK [] j := by simp [CtrlOK]
  unfold applyMat
  rw [if_pos hc, if_pos hc, Finset.mul_sum]
  exact Finset.sum_congr rfl (fun _ _ => by ring)

theorem applyMat_sum {ts : List Nat} (U V : Nat → Nat → ℂ) (ψ : U64 → ℂ) (j : U64) :
    applyMat ts (fun r s => U r s + V r s) [] ψ j = applyMat ts U [] ψ j + applyMat ts V [] ψ j := by
  have hc : CtrlOK [] j := by simp [CtrlOK]
  unfold applyMat
  rw [if_pos hc, if_pos hc, if_pos hc, ← Finset.sum_add_distrib]
  exact Finset.sum_congr rfl (fun _ _ => by ring)

end Verif.Proofs
