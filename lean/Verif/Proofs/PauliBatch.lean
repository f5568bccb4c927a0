import Verif.Model.PauliBatch
import Verif.Proofs.PauliExpect

/-! # Batched expectation values and transition amplitudes -/

namespace Verif.Proofs
open Verif Verif.Spec Verif.Model
attribute [-simp] BitVec.getLsbD_eq_getElem

theorem perSlot_ok {α : Type} {batch : Nat} {f : Nat → Res α} {g : Nat → α} (h : ∀ b, b < batch → f b = .ok (g b)) :
    perSlot batch f = .ok ((List.range batch).map g) := by
  have key : ∀ l : List Nat, (∀ b ∈ l, f b = .ok (g b)) → l.mapM f = (.ok (l.map g) : Res (List α)) := by
    intro l
    induction l with
    | nil => intro _; rfl
    | cons b l ih =>
      intro h
      rw [List.mapM_cons, h b (by simp), ih (fun b hb => h b (by simp [hb]))]
      rfl
  exact key _ (fun b hb => h b (List.mem_range.1 hb))

/-- each slot of the batched expectation value is the expectation value of that slot -/
theorem expectationBatched_eq (p : PauliOp) (batch dim : Nat) (ψ : Nat → U64 → ℂ) :
    p.expectationBatched batch dim ψ = perSlot batch (fun b => p.expectation dim (ψ b)) := by
  unfold PauliOp.expectationBatched PauliOp.expectation
  by_cases h : p.x = 0
  · simp only [if_pos h]
  · simp only [if_neg h]

theorem expectationBatched_spec (p : PauliOp) {n : Nat} (hn : n ≤ 64) (hx : p.x.toNat < 2 ^ n) (batch : Nat)
    (ψ : Nat → U64 → ℂ) :
    p.expectationBatched batch (2 ^ n) ψ =
      .ok ((List.range batch).map (fun b => inner (2 ^ n) (ψ b) (PauliAct p (ψ b)))) := by
  rw [expectationBatched_eq]
  exact perSlot_ok (fun b _ => expectation_spec p hn hx (ψ b))

/-- what the batched transition amplitude computes -/
theorem transitionBatched_eq (p : PauliOp) {bra ket : Batch} (hnq : bra.n = ket.n) (hsz : bra.size = ket.size)
    (hn : bra.n ≤ 64) (hx : p.x.toNat < 2 ^ bra.n) :
    p.transitionBatched bra ket = .ok ((List.range bra.size).map (fun b =>
      p.coef * (((if p.x = 0 then 1 else 2) *
        (inner (2 ^ bra.n) (bra.raw b) (pauliAct p.x p.z (ket.raw b))).re : ℝ) : ℂ))) := by
  have hF := flipOK_zero hn hx
  have hs : 2 ^ bra.n ≤ 2 ^ 64 := by have := hF.size; rwa [Nat.one_mul] at this
  unfold PauliOp.transitionBatched
  rw [if_neg (by simp [hnq]), if_neg (by simp [hsz]), ← hnq]
  by_cases h0 : p.x = 0
  · rw [if_pos h0]
    apply perSlot_ok
    intro b hb
    rw [reduceSum_ok (g := fun i => ((starRingEnd ℂ) (bra.raw b (BitVec.ofNat 64 i)) *
      pauliAct p.x p.z (ket.raw b) (BitVec.ofNat 64 i)).re)]
    · rw [ok_bind]
      show Except.ok _ = Except.ok _
      congr 1
      rw [if_pos h0, one_mul]
      unfold inner
      rw [sum_indices hs, Complex.re_sum]
    · intro i hi
      have : (BitVec.ofNat 64 i).toNat < 2 ^ bra.n := by rw [toNat_ofNat_lt hn hi]; exact hi
      rw [readAt_ok this, readAt_ok this]
      simp only [ok_bind]
      show Except.ok _ = Except.ok _
      congr 1
      rw [h0, pauliAct_diag, ← sign_eq]
      split
      · simp
      · rfl
  · rw [if_neg h0]
    dsimp only
    apply perSlot_ok
    intro b hb
    rw [reduceSum_ok (g := fun i =>
      (fun j => 2 * ((starRingEnd ℂ) (bra.raw b j) * pauliAct p.x p.z (ket.raw b) j).re)
        (insertZeroAt (BitVec.ofNat 64 i) (pivotOf p.x)) +
      (fun j => 2 * ((starRingEnd ℂ) (bra.raw b j) * pauliAct p.x p.z (ket.raw b) j).re)
        (insertZeroAt (BitVec.ofNat 64 i) (pivotOf p.x) ^^^ p.x))]
    · rw [ok_bind, half_sum hF h0 (fun j => 2 * ((starRingEnd ℂ) (bra.raw b j) * pauliAct p.x p.z (ket.raw b) j).re)]
      show Except.ok _ = Except.ok _
      congr 1
      rw [if_neg h0]
      unfold inner
      rw [Complex.re_sum, Finset.mul_sum]
    · intro i hi
      obtain ⟨m0, m1⟩ := half_mem hF h0 hi
      dsimp only
      rw [readAt_ok m0, readAt_ok m1, readAt_ok m1, readAt_ok m0]
      simp only [ok_bind]
      show Except.ok _ = Except.ok _
      congr 1
      generalize insertZeroAt (BitVec.ofNat 64 i) (pivotOf p.x) = c
      have key : ∀ c : U64, (if oddParity (c &&& p.z) = true then
          -(bra.raw b c * (starRingEnd ℂ) (ket.raw b (c ^^^ p.x)) * phase90 (popcount (p.x &&& p.z)) * 2).re
          else (bra.raw b c * (starRingEnd ℂ) (ket.raw b (c ^^^ p.x)) * phase90 (popcount (p.x &&& p.z)) * 2).re) =
          2 * ((starRingEnd ℂ) (bra.raw b c) * pauliAct p.x p.z (ket.raw b) c).re := by
        intro c
        have e : (starRingEnd ℂ) (bra.raw b c) * pauliAct p.x p.z (ket.raw b) c =
            (starRingEnd ℂ) (Complex.I ^ (2 * (popcount (c &&& p.z) : ℤ)) *
              (bra.raw b c * (starRingEnd ℂ) (ket.raw b (c ^^^ p.x)) * phase90 (popcount (p.x &&& p.z)))) := by
          rw [phase90_eq, map_mul, map_mul, map_mul, Complex.conj_conj, conj_I_zpow, conj_I_zpow]
          unfold pauliAct
          have : Complex.I ^ pauliExp p.x p.z c =
              Complex.I ^ (-(2 * (popcount (c &&& p.z) : ℤ))) * Complex.I ^ (-(popcount (p.x &&& p.z) : ℤ)) := by
            rw [← I_zpow_add]
            apply I_zpow_congr
            unfold pauliExp
            rw [Int.modEq_iff_dvd]
            exact ⟨-(popcount (c &&& p.z) : ℤ), by ring⟩
          rw [this]; ring
        rw [e, Complex.conj_re, ← sign_eq]
        split
        · simp; ring
        · simp; ring
      have k2 := key (c ^^^ p.x)
      rw [xor_xor_cancel] at k2
      rw [key c, k2]

end Verif.Proofs
