import Verif.Proofs.Merge
import Verif.Proofs.Measure
import Verif.Spec.Random

/-! # Operators on different qubits commute -/

namespace Verif.Proofs
open Verif Verif.Spec Verif.Model
attribute [-simp] BitVec.getLsbD_eq_getElem

theorem putBits_comm {ts ts' : List Nat} (h : TargetsOK ts) (h' : TargetsOK ts') (hd : ∀ q ∈ ts, q ∉ ts') (j : U64) (x y : Nat) :
    putBits (putBits j ts x) ts' y = putBits (putBits j ts' y) ts x := by
  apply U64.ext
  intro i _
  by_cases hi : i ∈ ts
  · have hi' := hd i hi
    rw [getLsbD_putBits_notMem _ h'.lt _ hi']
    obtain ⟨k, hk, rfl⟩ := List.getElem_of_mem hi
    rw [getLsbD_putBits_get _ h.nodup h.lt _ hk, getLsbD_putBits_get _ h.nodup h.lt _ hk]
  · rw [getLsbD_putBits_notMem _ h.lt _ hi]
    by_cases hi' : i ∈ ts'
    · obtain ⟨k, hk, rfl⟩ := List.getElem_of_mem hi'
      rw [getLsbD_putBits_get _ h'.nodup h'.lt _ hk, getLsbD_putBits_get _ h'.nodup h'.lt _ hk]
    · rw [getLsbD_putBits_notMem _ h'.lt _ hi', getLsbD_putBits_notMem _ h'.lt _ hi', getLsbD_putBits_notMem _ h.lt _ hi]

theorem getBits_putBits_other {ts ts' : List Nat} (h : TargetsOK ts) (hd : ∀ q ∈ ts', q ∉ ts) (j : U64) (x : Nat) :
    getBits (putBits j ts x) ts' = getBits j ts' :=
  getBits_congr fun q hq => getLsbD_putBits_notMem j h.lt x (hd q hq)

/-- two operators without a common qubit that is a target of one of them -/
theorem applyMat_comm {R : Type} [CommSemiring R] {ts ts' : List Nat} {cs cs' : List (Nat × Bool)} (h : TargetsOK ts) (h' : TargetsOK ts')
    (htt : ∀ q ∈ ts, q ∉ ts') (hct : CtrlDisj cs ts') (hct' : CtrlDisj cs' ts) (U V : Nat → Nat → R) (ψ : U64 → R) :
    applyMat ts U cs (applyMat ts' V cs' ψ) = applyMat ts' V cs' (applyMat ts U cs ψ) := by
  funext j
  have htt' : ∀ q ∈ ts', q ∉ ts := fun q hq hq' => htt q hq' hq
  have e1 : ∀ x, applyMat ts' V cs' ψ (putBits j ts x) = if CtrlOK cs' j then
      ∑ y ∈ Finset.range (2 ^ ts'.length), V (getBits j ts') y * ψ (putBits (putBits j ts x) ts' y) else ψ (putBits j ts x) := by
    intro x
    unfold applyMat
    rw [getBits_putBits_other h htt']
    simp only [ctrlOK_putBits h hct' j x]
  have e2 : ∀ y, applyMat ts U cs ψ (putBits j ts' y) = if CtrlOK cs j then
      ∑ x ∈ Finset.range (2 ^ ts.length), U (getBits j ts) x * ψ (putBits (putBits j ts x) ts' y) else ψ (putBits j ts' y) := by
    intro y
    unfold applyMat
    rw [getBits_putBits_other h' htt]
    simp only [ctrlOK_putBits h' hct j y, putBits_comm h h' htt]
  by_cases hc : CtrlOK cs j
  · rw [applyMat, if_pos hc]
    simp only [e1]
    by_cases hc' : CtrlOK cs' j
    · rw [applyMat, if_pos hc']
      simp only [e2, if_pos hc, if_pos hc', Finset.mul_sum]
      rw [Finset.sum_comm]
      refine Finset.sum_congr rfl fun y _ => Finset.sum_congr rfl fun x _ => ?_
      ring
    · rw [applyMat, if_neg hc', applyMat, if_pos hc]
      simp only [if_neg hc']
  · rw [applyMat, if_neg hc]
    unfold applyMat at e2 ⊢
    by_cases hc' : CtrlOK cs' j
    · rw [if_pos hc', if_pos hc']
      simp only [e2, if_neg hc]
    · rw [if_neg hc', if_neg hc', if_neg hc]

/-- gates that share no qubit commute -/
theorem opOf_comm {g g' : UGate} (hd : ∀ q, UGate.uses g q → ¬ UGate.uses g' q) (ψ : U64 → ℂ) :
    opOf g (opOf g' ψ) = opOf g' (opOf g ψ) :=
  applyMat_comm (valid_targetsOK g) (valid_targetsOK g')
    (fun q hq hq' => hd q (uses_iff.2 (.inl hq)) (uses_iff.2 (.inl hq')))
    (fun p hp hq => hd p.1 (uses_iff.2 (.inr ⟨p.2, hp⟩)) (uses_iff.2 (.inl hq)))
    (fun p hp hq => hd p.1 (uses_iff.2 (.inl hq)) (uses_iff.2 (.inr ⟨p.2, hp⟩))) _ _ ψ

/-- an operator that looks only at amplitudes of the state -/
def LocalOp (n : Nat) (f : (U64 → ℂ) → U64 → ℂ) : Prop :=
  ∀ φ φ' : U64 → ℂ, (∀ j, j.toNat < 2 ^ n → φ j = φ' j) → ∀ j, j.toNat < 2 ^ n → f φ j = f φ' j

theorem localOp_opOf {g : UGate} {n : Nat} (hu : ∀ q, UGate.uses g q → q < n) : LocalOp n (opOf g) := by
  intro φ φ' h j hj
  refine opOf_local (B := 1) (n := n) (fun q h => hu q (uses_iff.2 (.inl h))) φ φ' ?_ j ?_
  · intro i hi; exact h i (by simpa using hi)
  · simpa using hj

theorem onState_comm {n : Nat} {f f' : (U64 → ℂ) → U64 → ℂ} (hf : LocalOp n f) (hf' : LocalOp n f')
    (h : ∀ ψ, f (f' ψ) = f' (f ψ)) (ψ : U64 → ℂ) :
    onState (2 ^ n) f (onState (2 ^ n) f' ψ) = onState (2 ^ n) f' (onState (2 ^ n) f ψ) := by
  rw [onState_comp hf, onState_comp hf']
  simp only [h]

/-- `|b⟩⟨b|`, or `|0⟩⟨b|` -/
def measMat (b reset : Bool) : Nat → Nat → ℂ := fun r s => if r = (if reset then 0 else b.toNat) ∧ s = b.toNat then 1 else 0

/-- what a measurement with the result `b` does before it normalises -/
theorem afterMeasurement_eq {n q : Nat} (hq : q < 64) (b reset : Bool) (ψ : U64 → ℂ) (j : U64) :
    afterMeasurement n q b reset ψ j = (1 / (√(bitProb n ψ q b) : ℝ) : ℂ) * applyMat [q] (measMat b reset) [] ψ j := by
  have hb : putBits j [q] b.toNat = setBit j q b := by cases b <;> rfl
  have hs : applyMat [q] (measMat b reset) [] ψ j =
      (if (j.getLsbD q).toNat = (if reset then 0 else b.toNat) then ψ (setBit j q b) else 0) := by
    unfold applyMat
    rw [if_pos (by intro p hp; simp at hp)]
    have hg : getBits j [q] = (j.getLsbD q).toNat := by simp [getBits]
    rw [hg]
    unfold measMat
    rw [Finset.sum_eq_single b.toNat]
    · rw [hb]; split <;> simp_all
    · intro x _ hx; simp [hx]
    · intro hx
      exfalso
      apply hx
      cases b <;> simp
  rw [hs]
  unfold afterMeasurement
  cases reset
  · simp only [Bool.false_eq_true, if_false]
    by_cases h : j.getLsbD q = b
    · have he : setBit j q b = j := by rw [← h]; exact setBit_self j hq
      rw [if_pos h, if_pos (by rw [h]), he]; ring
    · rw [if_neg h, if_neg (by cases hj : j.getLsbD q <;> cases b <;> simp_all)]; simp
  · simp only [if_true]
    by_cases h : j.getLsbD q = false
    · rw [if_pos h, if_pos (by rw [h]; rfl)]; ring
    · rw [if_neg h, if_neg (by simpa using h)]; simp

theorem bitProb_eq {n q : Nat} (hq : q < 64) (b : Bool) (ψ : U64 → ℂ) :
    bitProb n ψ q b = normSq (2 ^ n) (applyMat [q] (measMat b false) [] ψ) := by
  unfold bitProb normSq
  refine Finset.sum_congr rfl fun j _ => ?_
  have hb : putBits j [q] b.toNat = setBit j q b := by cases b <;> rfl
  have hs : applyMat [q] (measMat b false) [] ψ j = (if j.getLsbD q = b then ψ j else 0) := by
    unfold applyMat
    rw [if_pos (by intro p hp; simp at hp)]
    have hg : getBits j [q] = (j.getLsbD q).toNat := by simp [getBits]
    rw [hg]
    unfold measMat
    rw [Finset.sum_eq_single b.toNat]
    · rw [hb]
      by_cases h : j.getLsbD q = b
      · have he : setBit j q b = j := by rw [← h]; exact setBit_self j hq
        rw [he, h]; simp
      · rw [if_neg h, if_neg (by cases hj : j.getLsbD q <;> cases b <;> simp_all)]; simp
    · intro x _ hx; simp [hx]
    · intro hx
      exfalso
      apply hx
      cases b <;> simp
  rw [hs]
  split <;> simp

/-- the gate keeps the norm of every state of `n` qubits -/
def KeepsNorm (n : Nat) (g : UGate) : Prop := ∀ ψ, normSq (2 ^ n) (opOf g ψ) = normSq (2 ^ n) ψ

theorem normSq_congr' {n : Nat} (hn : n ≤ 64) {φ φ' : U64 → ℂ} (h : ∀ j, j.toNat < 2 ^ n → φ j = φ' j) : normSq (2 ^ n) φ = normSq (2 ^ n) φ' := by
  unfold normSq
  refine Finset.sum_congr rfl fun j hj => ?_
  rw [h j ((mem_indices (Nat.pow_le_pow_right (by norm_num) hn)).1 hj)]

theorem bitProb_congr {n q : Nat} (hn : n ≤ 64) {b : Bool} {φ φ' : U64 → ℂ} (h : ∀ j, j.toNat < 2 ^ n → φ j = φ' j) :
    bitProb n φ q b = bitProb n φ' q b := by
  unfold bitProb
  refine Finset.sum_congr rfl fun j hj => ?_
  rw [h j ((mem_indices (Nat.pow_le_pow_right (by norm_num) hn)).1 hj)]

theorem comm_meas {g : UGate} {q : Nat} (hq64 : q < 64) (hq : ¬ UGate.uses g q) (M : Nat → Nat → ℂ) (ψ : U64 → ℂ) :
    applyMat [q] M [] (opOf g ψ) = opOf g (applyMat [q] M [] ψ) :=
  applyMat_comm ⟨by simp, by simpa using hq64⟩ (valid_targetsOK g) (by
      intro p hp hp'
      rw [List.mem_singleton.1 hp] at hp'
      exact hq (uses_iff.2 (.inl hp'))) (fun p hp => by simp at hp) (by
      intro p hp hp'
      obtain ⟨a, b⟩ := p
      have e : a = q := List.mem_singleton.1 hp'
      subst e
      exact hq (uses_iff.2 (.inr ⟨b, hp⟩))) _ _ ψ

theorem bitProb_opOf {n : Nat} (hn : n ≤ 64) {g : UGate} (hk : KeepsNorm n g) {q : Nat} (hq64 : q < 64) (hq : ¬ UGate.uses g q) (b : Bool) (ψ : U64 → ℂ) :
    bitProb n (onState (2 ^ n) (opOf g) ψ) q b = bitProb n ψ q b := by
  rw [bitProb_congr hn (φ' := opOf g ψ) (fun j hj => by rw [onState, if_pos hj]), bitProb_eq hq64, bitProb_eq hq64, comm_meas hq64 hq, hk]

/-- measuring commutes with a unitary gate on other qubits -/
theorem measure_comm {n : Nat} (hn : n ≤ 64) {g : UGate} (hk : KeepsNorm n g) (hu : ∀ q, UGate.uses g q → q < n) {q : Nat} (hqn : q < n)
    (hq : ¬ UGate.uses g q) (b reset : Bool) (ψ : U64 → ℂ) :
    onState (2 ^ n) (afterMeasurement n q b reset) (onState (2 ^ n) (opOf g) ψ) =
      onState (2 ^ n) (opOf g) (onState (2 ^ n) (afterMeasurement n q b reset) ψ) := by
  have hq64 : q < 64 := by omega
  have hl : LocalOp n (applyMat [q] (measMat b reset) []) := by
    intro φ φ' h j hj
    refine applyMat_local (B := 1) (n := n) (by simpa using hq64) (by simpa using hqn) _ φ φ' ?_ j (by simpa using hj)
    intro i hi; exact h i (by simpa using hi)
  funext j
  by_cases hj : j.toNat < 2 ^ n
  · rw [onState, if_pos hj, afterMeasurement_eq hq64, bitProb_opOf hn hk hq64 hq, onState, if_pos hj]
    have e1 : applyMat [q] (measMat b reset) [] (onState (2 ^ n) (opOf g) ψ) j = applyMat [q] (measMat b reset) [] (opOf g ψ) j :=
      hl _ _ (fun i hi => by rw [onState, if_pos hi]) j hj
    have e2 : opOf g (onState (2 ^ n) (afterMeasurement n q b reset) ψ) j =
        opOf g (fun i => (1 / (√(bitProb n ψ q b) : ℝ) : ℂ) * applyMat [q] (measMat b reset) [] ψ i) j :=
      localOp_opOf hu _ _ (fun i hi => by rw [onState, if_pos hi, afterMeasurement_eq hq64]) j hj
    rw [e1, e2, opOf_smul, comm_meas hq64 hq]
  · rw [onState, if_neg hj, onState, if_neg hj, onState, if_neg hj, onState, if_neg hj]

/-- multiplying with a phase -/
noncomputable def phaseOp (φ : ℝ) : (U64 → ℂ) → U64 → ℂ := fun ψ j => cis φ * ψ j

theorem localOp_phase (n : Nat) (φ : ℝ) : LocalOp n (phaseOp φ) := fun a b h j hj => by unfold phaseOp; rw [h j hj]

theorem phase_comm (g : UGate) (φ : ℝ) (ψ : U64 → ℂ) : opOf g (phaseOp φ ψ) = phaseOp φ (opOf g ψ) := opOf_smul g (cis φ) ψ

theorem normSq_cis (φ : ℝ) : Complex.normSq (cis φ) = 1 := by
  rw [cis_eq, Complex.normSq_mk]
  have := Real.cos_sq_add_sin_sq φ
  nlinarith

theorem bitProb_phase {n : Nat} (hn : n ≤ 64) (q : Nat) (b : Bool) (φ : ℝ) (ψ : U64 → ℂ) :
    bitProb n (onState (2 ^ n) (phaseOp φ) ψ) q b = bitProb n ψ q b := by
  rw [bitProb_congr hn (φ' := phaseOp φ ψ) (fun j hj => by rw [onState, if_pos hj])]
  unfold bitProb phaseOp
  refine Finset.sum_congr rfl fun j _ => ?_
  rw [Complex.normSq_mul, normSq_cis, one_mul]

theorem measure_phase {n : Nat} (hn : n ≤ 64) {q : Nat} (b reset : Bool) (φ : ℝ) (ψ : U64 → ℂ) (hqn : q < n) :
    onState (2 ^ n) (afterMeasurement n q b reset) (onState (2 ^ n) (phaseOp φ) ψ) =
      onState (2 ^ n) (phaseOp φ) (onState (2 ^ n) (afterMeasurement n q b reset) ψ) := by
  have hq64 : q < 64 := by omega
  have hl : LocalOp n (applyMat [q] (measMat b reset) []) := by
    intro φ φ' h j hj
    refine applyMat_local (B := 1) (n := n) (by simpa using hq64) (by simpa using hqn) _ φ φ' ?_ j (by simpa using hj)
    intro i hi; exact h i (by simpa using hi)
  funext j
  by_cases hj : j.toNat < 2 ^ n
  · rw [onState, if_pos hj, afterMeasurement_eq hq64, bitProb_phase hn, onState, if_pos hj]
    have e1 : applyMat [q] (measMat b reset) [] (onState (2 ^ n) (phaseOp φ) ψ) j = applyMat [q] (measMat b reset) [] (phaseOp φ ψ) j :=
      hl _ _ (fun i hi => by rw [onState, if_pos hi]) j hj
    rw [e1]
    unfold phaseOp
    rw [onState, if_pos hj, afterMeasurement_eq hq64, applyMat_smul]
    ring
  · rw [onState, if_neg hj, onState, if_neg hj, onState, if_neg hj, onState, if_neg hj]

end Verif.Proofs
