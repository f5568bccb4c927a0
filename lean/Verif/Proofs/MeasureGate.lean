import Verif.Proofs.SlotLoop
import Verif.Proofs.Operands
import Verif.Proofs.GateObj
import Verif.Proofs.GateDescFacts

/-! # Measurement gates as objects -/

namespace Verif.Proofs
open Verif Verif.Spec Verif.Model
attribute [-simp] BitVec.getLsbD_eq_getElem

theorem mkMeas_ok {target cbit : Nat} {reset : Bool} {g : MeasGate} (h : mkMeas target cbit reset = .ok g) :
    mkOperands [target] [] [] = .ok g.o ∧ g.cbit = cbit ∧ g.reset = reset := by
  unfold mkMeas at h
  obtain ⟨t, ht, h⟩ := bind_ok h
  obtain ⟨o, ho, h⟩ := bind_ok h
  cases h
  refine ⟨?_, rfl, rfl⟩
  unfold mkOperands
  have : resizeAndCheckControlValues [] [] = .ok [] := rfl
  rw [this, ok_bind, ht, ok_bind]
  exact ho

theorem mkMeas_build {target cbit : Nat} {reset : Bool} (h : target < 64) : ∃ g, mkMeas target cbit reset = .ok g := by
  have h1 : vectorToMask [target] = .ok (0#64 ||| 1#64 <<< target) := by
    unfold vectorToMask
    rw [List.foldlM_cons]
    unfold vectorToMaskStep
    rw [if_neg (by omega), if_neg (by simp)]
    have : shl1 target = .ok (1#64 <<< target) := by unfold shl1; rw [if_pos h]
    rw [this]
    rfl
  unfold mkMeas
  rw [h1, ok_bind]
  unfold gateBase
  rw [if_neg (by simp)]
  exact ⟨_, rfl⟩

/-- the bounds check of a measurement gate -/
theorem mkMeas_bounds {target cbit n : Nat} {reset : Bool} {g : MeasGate} (h : mkMeas target cbit reset = .ok g) (hn : n ≤ 63) :
    checkWithinBounds g.o n = .ok () ↔ target < n := by
  rw [checkWithinBounds_ok_iff (by omega) (mkMeas_ok h).1]
  simp

theorem measureAndStore_spec {L n target cbit : Nat} {reset : Bool} {g : MeasGate} (h : mkMeas target cbit reset = .ok g)
    (hL : LanesOK L) (hn : n ≤ 63) (hq : target < n) {rnd : Nat → ℝ} {ψ : U64 → ℂ} {reg : List Bool} {pos : Nat}
    (hc : cbit < reg.length) (h1 : bitProb n ψ target false ≤ 1) {b : Bool}
    (hb : b = !decide (rnd pos < bitProb n ψ target false)) (h0 : bitProb n ψ target b ≠ 0) :
    g.MeasureAndStore L n rnd ⟨ψ, reg, pos⟩
      ⟨onState (2 ^ n) (afterMeasurement n target b reset) ψ, reg.set cbit b, pos + 1⟩ none := by
  obtain ⟨ho, rfl, rfl⟩ := mkMeas_ok h
  refine ⟨.ok (!b), measure_spec hL hn hq (isBit_of ho) _ ψ h1 b hb h0, rfl, ?_⟩
  have hs : setRegister reg g.cbit (!!b) = .ok (reg.set g.cbit b) := by
    unfold setRegister
    rw [if_neg (by simpa using hc), Bool.not_not]
  dsimp only
  rw [hs]
  exact ⟨rfl, rfl⟩

theorem meas_check_ok {n target cbit : Nat} {reset : Bool} {g : MeasGate} (h : mkMeas target cbit reset = .ok g)
    (hn : n ≤ 63) {len : Nat} : (g.check n len = .ok () ↔ target < n ∧ cbit < len) ∧
    ((n ≤ target ∨ len ≤ cbit) → ∃ e, g.check n len = .error (.throw e)) := by
  have hb := mkMeas_bounds h hn
  have hcb := (mkMeas_ok h).2.1
  unfold MeasGate.check
  by_cases hq : target < n
  · rw [hb.2 hq, ok_bind]
    by_cases hl : len ≤ g.cbit
    · rw [if_pos hl]
      exact ⟨⟨fun h => by (cases h), fun h => by omega⟩, fun _ => ⟨_, rfl⟩⟩
    · rw [if_neg hl]
      exact ⟨⟨fun _ => ⟨hq, by omega⟩, fun _ => rfl⟩, fun h => by omega⟩
  · obtain ⟨e, he⟩ := checkWithinBounds_throws (o := g.o) (n := n) (by omega) (fun h => hq (hb.1 h))
    rw [he]
    exact ⟨⟨fun h => by (cases h), fun h => absurd h.1 hq⟩, fun _ => ⟨_, rfl⟩⟩

theorem meas_checkBatched_ok {B n target cbit : Nat} {reset : Bool} {g : MeasGate} (h : mkMeas target cbit reset = .ok g)
    (hn : n ≤ 63) {reg : BReg} : (g.checkBatched B n reg = .ok () ↔ target < n ∧ reg.regs.length = B ∧ cbit < reg.size) ∧
    ((n ≤ target ∨ reg.regs.length ≠ B ∨ reg.size ≤ cbit) → ∃ e, g.checkBatched B n reg = .error (.throw e)) := by
  have hb := mkMeas_bounds h hn
  have hcb := (mkMeas_ok h).2.1
  unfold MeasGate.checkBatched
  by_cases hq : target < n
  · rw [hb.2 hq, ok_bind]
    by_cases hB : reg.regs.length ≠ B
    · rw [if_pos hB]
      exact ⟨⟨fun h => by (cases h), fun h => absurd h.2.1 hB⟩, fun _ => ⟨_, rfl⟩⟩
    rw [if_neg hB]
    by_cases hl : reg.size ≤ g.cbit
    · rw [if_pos hl]
      exact ⟨⟨fun h => by (cases h), fun h => by omega⟩, fun _ => ⟨_, rfl⟩⟩
    · rw [if_neg hl]
      exact ⟨⟨fun _ => ⟨hq, by omega, by omega⟩, fun _ => rfl⟩, fun h => by omega⟩
  · obtain ⟨e, he⟩ := checkWithinBounds_throws (o := g.o) (n := n) (by omega) (fun h => hq (hb.1 h))
    rw [he]
    exact ⟨⟨fun h => by (cases h), fun h => absurd h.1 hq⟩, fun _ => ⟨_, rfl⟩⟩

theorem afterMeasurement_congr {n q : Nat} (hn : n ≤ 63) (hq : q < n) (b reset : Bool) {φ ψ : U64 → ℂ}
    (h : ∀ j : U64, j.toNat < 2 ^ n → φ j = ψ j) {j : U64} (hj : j.toNat < 2 ^ n) :
    afterMeasurement n q b reset φ j = afterMeasurement n q b reset ψ j := by
  have hp : bitProb n φ q b = bitProb n ψ q b := by
    unfold bitProb
    refine Finset.sum_congr rfl fun i hi => ?_
    rw [h i ((mem_indices (pow64 hn)).1 hi)]
  unfold afterMeasurement
  rw [hp, h j hj, h (setBit j q b) (setBit_lt (by omega) hq hj b)]

end Verif.Proofs
