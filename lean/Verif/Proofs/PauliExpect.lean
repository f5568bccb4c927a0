import Verif.Proofs.PauliAlg

/-! # Expectation values and transition amplitudes of Pauli operators -/

namespace Verif.Proofs
open Verif Verif.Spec Verif.Model
attribute [-simp] BitVec.getLsbD_eq_getElem

theorem sum_indices {S : Type} [AddCommMonoid S] {dim : Nat} (hd : dim ≤ 2 ^ 64) (f : U64 → S) :
    ∑ j ∈ indices dim, f j = ∑ i ∈ Finset.range dim, f (BitVec.ofNat 64 i) := by
  unfold indices
  rw [Finset.sum_image]
  intro a ha b hb e
  have ha' : a < dim := by simpa using ha
  have hb' : b < dim := by simpa using hb
  have := congrArg BitVec.toNat e
  rwa [BitVec.toNat_ofNat, BitVec.toNat_ofNat, Nat.mod_eq_of_lt (by omega), Nat.mod_eq_of_lt (by omega)] at this

section
variable {n : Nat} {x : U64}

theorem half_mem (h : FlipOK 1 n 0 0 x) (hx : x ≠ 0) {i : Nat} (hi : i < (2 ^ n) >>> 1) :
    (insertZeroAt (BitVec.ofNat 64 i) (pivotOf x)).toNat < 2 ^ n ∧
    (insertZeroAt (BitVec.ofNat 64 i) (pivotOf x) ^^^ x).toNat < 2 ^ n := by
  have hb := FlipOK.isBit hx
  have hM := h.masks hx
  have hor : (1#64 <<< pivotOf x) ||| (0 : U64) = 1#64 <<< pivotOf x := by simp
  have hfit : (1#64 <<< pivotOf x).toNat < 2 ^ n := by have := hM.fits; rwa [hor] at this
  have hw : workItems (1 * 2 ^ n) (1#64 <<< pivotOf x) = (2 ^ n) >>> 1 := by
    unfold workItems; rw [popcount_isBit hb.1 hb.2, Nat.one_mul]
  have h1 := (item_mem hfit h.size (it := i) (by rw [hw]; exact hi)).1
  rw [insertZero_bit hb.1] at h1
  have h2 := (h.inState_xor (insertZeroAt (BitVec.ofNat 64 i) (pivotOf x))).2 h1
  unfold InState at h2
  rw [Nat.one_mul] at h1 h2
  exact ⟨h1, h2⟩

/-- summing over pairs `{b, b ^ x}` sums over the whole state -/
theorem half_sum {S : Type} [AddCommMonoid S] (h : FlipOK 1 n 0 0 x) (hx : x ≠ 0) (f : U64 → S) :
    ∑ i ∈ Finset.range ((2 ^ n) >>> 1), (f (insertZeroAt (BitVec.ofNat 64 i) (pivotOf x)) +
      f (insertZeroAt (BitVec.ofNat 64 i) (pivotOf x) ^^^ x)) = ∑ j ∈ indices (2 ^ n), f j := by
  have hb := FlipOK.isBit hx
  have hM := h.masks hx
  obtain ⟨hp64, hpx⟩ := pivotOf_spec hx
  have hor : (1#64 <<< pivotOf x) ||| (0 : U64) = 1#64 <<< pivotOf x := by simp
  have hfit : (1#64 <<< pivotOf x).toNat < 2 ^ n := by have := hM.fits; rwa [hor] at this
  have hw : workItems (1 * 2 ^ n) (1#64 <<< pivotOf x) = (2 ^ n) >>> 1 := by
    unfold workItems; rw [popcount_isBit hb.1 hb.2, Nat.one_mul]
  have hsz : 2 ^ n ≤ 2 ^ 64 := by have := h.size; rwa [Nat.one_mul] at this
  have bit0 : ∀ i, (insertZeroAt (BitVec.ofNat 64 i) (pivotOf x)).getLsbD (pivotOf x) = false := by
    intro i
    rw [getLsbD_insertZeroAt hp64 _ _ hp64]; simp
  have half : ∀ g : U64 → S, ∑ i ∈ Finset.range ((2 ^ n) >>> 1), g (insertZeroAt (BitVec.ofNat 64 i) (pivotOf x)) =
      ∑ j ∈ (indices (2 ^ n)).filter (fun j => j.getLsbD (pivotOf x) = false), g j := by
    intro g
    refine Finset.sum_bij (fun i _ => insertZeroAt (BitVec.ofNat 64 i) (pivotOf x)) ?_ ?_ ?_ ?_
    · intro i hi
      rw [Finset.mem_filter, mem_indices hsz]
      exact ⟨(half_mem h hx (Finset.mem_range.1 hi)).1, bit0 i⟩
    · intro i hi i' hi' e
      have h1 := Finset.mem_range.1 hi
      have h2 := Finset.mem_range.1 hi'
      apply item_inj hfit h.size (by rw [hw]; exact h1) (by rw [hw]; exact h2)
      rw [insertZero_bit hb.1, insertZero_bit hb.1]; exact e
    · intro j hj
      rw [Finset.mem_filter, mem_indices hsz] at hj
      obtain ⟨it, hit, e⟩ := item_surj (B := 1) (j := j) hfit (by rw [Nat.one_mul]; exact hj.1) (by
        rw [and_eq_iff]; intro i _
        rw [hb.2]
        by_cases e : i = pivotOf x
        · subst e; rw [hj.2]; simp
        · simp [e])
      rw [hw] at hit
      rw [insertZero_bit hb.1] at e
      exact ⟨it, Finset.mem_range.2 hit, e⟩
    · intro i _; rfl
  rw [Finset.sum_add_distrib, half f, half (fun j => f (j ^^^ x)),
    ← Finset.sum_filter_add_sum_filter_not (indices (2 ^ n)) (fun j => j.getLsbD (pivotOf x) = false) f]
  congr 1
  refine Finset.sum_nbij' (· ^^^ x) (· ^^^ x) ?_ ?_ ?_ ?_ ?_
  · intro j hj
    rw [Finset.mem_filter, mem_indices hsz] at hj ⊢
    refine ⟨?_, ?_⟩
    · have := (h.inState_xor j).2 (by unfold InState; rw [Nat.one_mul]; exact hj.1)
      unfold InState at this; rwa [Nat.one_mul] at this
    · show ¬ (j ^^^ x).getLsbD (pivotOf x) = false
      rw [BitVec.getLsbD_xor, hj.2, hpx]; simp
  · intro j hj
    rw [Finset.mem_filter, mem_indices hsz] at hj ⊢
    refine ⟨?_, ?_⟩
    · have := (h.inState_xor j).2 (by unfold InState; rw [Nat.one_mul]; exact hj.1)
      unfold InState at this; rwa [Nat.one_mul] at this
    · show (j ^^^ x).getLsbD (pivotOf x) = false
      have h2 : j.getLsbD (pivotOf x) = true := by simpa using hj.2
      rw [BitVec.getLsbD_xor, h2, hpx]; rfl
  · intro j _; exact xor_xor_cancel j x
  · intro j _; exact xor_xor_cancel j x
  · intro j _; rfl

end

theorem readAt_ok {R : Type} {dim : Nat} {ψ : U64 → R} {i : U64} (h : i.toNat < dim) : readAt dim ψ i = .ok (ψ i) := by
  unfold readAt; rw [if_pos h]

theorem toNat_ofNat_lt {i n : Nat} (hn : n ≤ 64) (h : i < 2 ^ n) : (BitVec.ofNat 64 i).toNat = i := by
  rw [BitVec.toNat_ofNat, Nat.mod_eq_of_lt]
  exact lt_of_lt_of_le h (Nat.pow_le_pow_right (by omega) hn)

/-- `get_transition_amplitude` for states of the same size containing all flipped qubits -/
theorem transition_spec (p : PauliOp) {n : Nat} (hn : n ≤ 64) (hx : p.x.toNat < 2 ^ n) (bra ket : U64 → ℂ) :
    p.transition (2 ^ n) (2 ^ n) bra ket = .ok (inner (2 ^ n) bra (PauliAct p ket)) := by
  have hF := flipOK_zero hn hx
  have hsz : 2 ^ n ≤ 2 ^ 64 := by have := hF.size; rwa [Nat.one_mul] at this
  unfold PauliOp.transition
  split
  · rename_i h0
    dsimp only
    rw [reduceSum_ok (g := fun i => Complex.I ^ (2 * (popcount (BitVec.ofNat 64 i &&& p.z) : ℤ)) *
      ((starRingEnd ℂ) (bra (BitVec.ofNat 64 i)) * ket (BitVec.ofNat 64 i)))]
    · rw [ok_bind]
      show Except.ok _ = Except.ok _
      congr 1
      unfold inner PauliAct
      rw [sum_indices hsz, Finset.mul_sum]
      apply Finset.sum_congr rfl
      intro i _
      rw [h0, pauliAct_diag]; ring
    · intro i hi
      have : (BitVec.ofNat 64 i).toNat < 2 ^ n := by rw [toNat_ofNat_lt hn hi]; exact hi
      rw [readAt_ok this, readAt_ok this]
      simp only [ok_bind]
      rw [sign_eq]; rfl
  · rename_i h0
    dsimp only
    rw [reduceSum_ok (g := fun i =>
      (fun j => (starRingEnd ℂ) (bra j) * pauliAct p.x p.z ket j) (insertZeroAt (BitVec.ofNat 64 i) (pivotOf p.x)) +
      (fun j => (starRingEnd ℂ) (bra j) * pauliAct p.x p.z ket j)
        (insertZeroAt (BitVec.ofNat 64 i) (pivotOf p.x) ^^^ p.x))]
    · rw [ok_bind, half_sum hF h0 (fun j => (starRingEnd ℂ) (bra j) * pauliAct p.x p.z ket j)]
      show Except.ok _ = Except.ok _
      congr 1
      unfold inner PauliAct
      rw [Finset.mul_sum]
      apply Finset.sum_congr rfl
      intro i _
      ring
    · intro i hi
      obtain ⟨m0, m1⟩ := half_mem hF h0 hi
      dsimp only
      rw [readAt_ok m0, readAt_ok m1, readAt_ok m0, readAt_ok m1]
      simp only [ok_bind]
      show Except.ok _ = Except.ok _
      congr 1
      generalize insertZeroAt (BitVec.ofNat 64 i) (pivotOf p.x) = b
      rw [sign_eq, sign_eq, phase90_eq]
      unfold pauliAct
      rw [xor_xor_cancel]
      have e1 : Complex.I ^ pauliExp p.x p.z (b ^^^ p.x) =
          Complex.I ^ (2 * (popcount (b &&& p.z) : ℤ)) * Complex.I ^ (popcount (p.x &&& p.z) : ℤ) := by
        rw [← I_zpow_add, add_comm]; exact I_zpow_congr (pauliExp_xor _ _ _)
      have e2 : Complex.I ^ pauliExp p.x p.z b =
          Complex.I ^ (2 * (popcount ((b ^^^ p.x) &&& p.z) : ℤ)) * Complex.I ^ (popcount (p.x &&& p.z) : ℤ) := by
        rw [← I_zpow_add, add_comm]
        apply I_zpow_congr
        have := pauliExp_xor p.x p.z (b ^^^ p.x)
        rwa [xor_xor_cancel] at this
      rw [e1, e2]
      ring

/-- `get_expectation_value` -/
theorem expectation_spec (p : PauliOp) {n : Nat} (hn : n ≤ 64) (hx : p.x.toNat < 2 ^ n) (ψ : U64 → ℂ) :
    p.expectation (2 ^ n) ψ = .ok (inner (2 ^ n) ψ (PauliAct p ψ)) := by
  have hF := flipOK_zero hn hx
  have hsz : 2 ^ n ≤ 2 ^ 64 := by have := hF.size; rwa [Nat.one_mul] at this
  unfold PauliOp.expectation
  split
  · rename_i h0
    dsimp only
    rw [reduceSum_ok (g := fun i =>
      if oddParity (BitVec.ofNat 64 i &&& p.z) = true then
        -((starRingEnd ℂ) (ψ (BitVec.ofNat 64 i)) * ψ (BitVec.ofNat 64 i)).re
      else ((starRingEnd ℂ) (ψ (BitVec.ofNat 64 i)) * ψ (BitVec.ofNat 64 i)).re)]
    · rw [ok_bind]
      show Except.ok _ = Except.ok _
      congr 1
      unfold inner PauliAct
      rw [sum_indices hsz, Complex.ofReal_sum, Finset.mul_sum]
      apply Finset.sum_congr rfl
      intro i _
      generalize BitVec.ofNat 64 i = b
      have hre : ((((starRingEnd ℂ) (ψ b) * ψ b).re : ℝ) : ℂ) = (starRingEnd ℂ) (ψ b) * ψ b := by
        rw [mul_comm, Complex.mul_conj]; simp
      rw [h0, pauliAct_diag, ← sign_eq]
      split
      · rw [Complex.ofReal_neg, hre]; ring
      · rw [hre]; ring
    · intro i hi
      have : (BitVec.ofNat 64 i).toNat < 2 ^ n := by rw [toNat_ofNat_lt hn hi]; exact hi
      rw [readAt_ok this]
      rfl
  · rename_i h0
    dsimp only
    rw [reduceSum_ok (g := fun i =>
      if oddParity (insertZeroAt (BitVec.ofNat 64 i) (pivotOf p.x) &&& p.z) = true then
        -(ψ (insertZeroAt (BitVec.ofNat 64 i) (pivotOf p.x)) *
          (starRingEnd ℂ) (ψ (insertZeroAt (BitVec.ofNat 64 i) (pivotOf p.x) ^^^ p.x)) *
          phase90 (popcount (p.x &&& p.z)) * 2).re
      else (ψ (insertZeroAt (BitVec.ofNat 64 i) (pivotOf p.x)) *
          (starRingEnd ℂ) (ψ (insertZeroAt (BitVec.ofNat 64 i) (pivotOf p.x) ^^^ p.x)) *
          phase90 (popcount (p.x &&& p.z)) * 2).re)]
    · rw [ok_bind]
      show Except.ok _ = Except.ok _
      congr 1
      have hin : inner (2 ^ n) ψ (PauliAct p ψ) = p.coef *
          ∑ j ∈ indices (2 ^ n), (starRingEnd ℂ) (ψ j) * pauliAct p.x p.z ψ j := by
        unfold inner PauliAct
        rw [Finset.mul_sum]
        apply Finset.sum_congr rfl
        intro i _
        ring
      rw [hin, ← half_sum hF h0, Complex.ofReal_sum]
      congr 1
      apply Finset.sum_congr rfl
      intro i _
      generalize insertZeroAt (BitVec.ofNat 64 i) (pivotOf p.x) = b
      set w : ℂ := (starRingEnd ℂ) (ψ (b ^^^ p.x)) * pauliAct p.x p.z ψ (b ^^^ p.x) with hw
      have hw2 : (starRingEnd ℂ) (ψ b) * pauliAct p.x p.z ψ b = (starRingEnd ℂ) w := by
        rw [hw]
        unfold pauliAct
        rw [map_mul, map_mul, Complex.conj_conj, conj_I_zpow, xor_xor_cancel]
        have : Complex.I ^ pauliExp p.x p.z b = Complex.I ^ (-pauliExp p.x p.z (b ^^^ p.x)) := by
          apply I_zpow_congr
          have h1 := (pauliExp_xor p.x p.z b).neg
          refine Int.ModEq.trans ?_ h1.symm
          unfold pauliExp
          rw [Int.modEq_iff_dvd]
          exact ⟨-(popcount (b &&& p.z) : ℤ), by ring⟩
        rw [this]; ring
      have e1 : w = Complex.I ^ (2 * (popcount (b &&& p.z) : ℤ)) *
          (ψ b * (starRingEnd ℂ) (ψ (b ^^^ p.x)) * phase90 (popcount (p.x &&& p.z))) := by
        rw [hw]
        unfold pauliAct
        rw [I_zpow_congr (pauliExp_xor _ _ _), I_zpow_add, xor_xor_cancel, phase90_eq]; ring
      rw [← sign_eq] at e1
      rw [hw2]
      have e3 : (starRingEnd ℂ) w + w = ((2 * w.re : ℝ) : ℂ) := by
        rw [add_comm, Complex.add_conj]
      rw [e3]
      congr 1
      rw [e1]
      split
      · simp; ring
      · simp; ring
    · intro i hi
      obtain ⟨m0, m1⟩ := half_mem hF h0 hi
      rw [readAt_ok m0, readAt_ok m1]
      rfl

end Verif.Proofs
