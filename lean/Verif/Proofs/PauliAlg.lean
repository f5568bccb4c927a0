import Verif.Proofs.PauliCtor

/-! # Products, adjoints, expectation values and transition amplitudes of Pauli operators -/

namespace Verif.Proofs
open Verif Verif.Spec Verif.Model
attribute [-simp] BitVec.getLsbD_eq_getElem

/-- the operator of a `PauliOp` -/
noncomputable def PauliAct (p : PauliOp) (ψ : U64 → ℂ) : U64 → ℂ := fun j => p.coef * pauliAct p.x p.z ψ j

theorem pauliAct_smul (x z : U64) (a : ℂ) (ψ : U64 → ℂ) :
    pauliAct x z (fun j => a * ψ j) = fun j => a * pauliAct x z ψ j := by
  funext j; unfold pauliAct; ring

/-- the exponent arithmetic behind `operator*` -/
theorem mul_exp (x z x' z' j : U64) (cnt : ℤ)
    (hcnt : cnt = popcount ((x &&& ~~~z) &&& (x' &&& z')) + popcount ((x &&& z) &&& (z' &&& ~~~x')) +
      popcount ((z &&& ~~~x) &&& (x' &&& ~~~z')) - popcount ((x &&& ~~~z) &&& (z' &&& ~~~x')) -
      popcount ((x &&& z) &&& (x' &&& ~~~z')) - popcount ((z &&& ~~~x) &&& (x' &&& z'))) :
    pauliExp x z j + pauliExp x' z' (j ^^^ x) ≡ cnt + pauliExp (x ^^^ x') (z ^^^ z') j [ZMOD 4] := by
  rw [hcnt]
  unfold pauliExp
  simp only [popcount_cast]
  rw [Finset.mul_sum, Finset.mul_sum, Finset.mul_sum, ← Finset.sum_neg_distrib, ← Finset.sum_neg_distrib,
    ← Finset.sum_neg_distrib]
  simp only [← Finset.sum_add_distrib, ← Finset.sum_sub_distrib]
  apply modEq_sum
  intro q hq
  have hq' : q < 64 := Finset.mem_range.1 hq
  simp only [BitVec.getLsbD_and, BitVec.getLsbD_xor, BitVec.getLsbD_not, hq', decide_true, Bool.true_and]
  cases x.getLsbD q <;> cases z.getLsbD q <;> cases x'.getLsbD q <;> cases z'.getLsbD q <;>
    cases j.getLsbD q <;> decide

/-- `operator*` is composition -/
theorem mul_spec (p r : PauliOp) (ψ : U64 → ℂ) : PauliAct (p.mul r) ψ = PauliAct p (PauliAct r ψ) := by
  funext j
  unfold PauliAct
  rw [pauliAct_smul]
  unfold PauliOp.mul
  dsimp only
  set cnt : ℤ := popcount ((p.x &&& ~~~p.z) &&& (r.x &&& r.z)) + popcount ((p.x &&& p.z) &&& (r.z &&& ~~~r.x)) +
      popcount ((p.z &&& ~~~p.x) &&& (r.x &&& ~~~r.z)) - popcount ((p.x &&& ~~~p.z) &&& (r.z &&& ~~~r.x)) -
      popcount ((p.x &&& p.z) &&& (r.x &&& ~~~r.z)) - popcount ((p.z &&& ~~~p.x) &&& (r.x &&& r.z)) with hcnt
  have hmod : (if cnt.tmod 4 < 0 then cnt.tmod 4 + 4 else cnt.tmod 4) = cnt % 4 := by
    rw [Int.tmod_eq_emod]
    have h0 := Int.emod_nonneg cnt (by omega : (4 : ℤ) ≠ 0)
    have h1 := Int.emod_lt_of_pos cnt (by omega : (0 : ℤ) < 4)
    simp only [Int.natAbs]
    split <;> split <;> omega
  rw [hmod, phase90_eq, Int.toNat_of_nonneg (Int.emod_nonneg cnt (by omega)), I_zpow_congr (Int.mod_modEq cnt 4)]
  unfold pauliAct
  have e : j ^^^ (p.x ^^^ r.x) = j ^^^ p.x ^^^ r.x := (BitVec.xor_assoc _ _ _).symm
  have := mul_exp p.x p.z r.x r.z j cnt hcnt
  have h2 := I_zpow_congr this
  rw [I_zpow_add, I_zpow_add] at h2
  rw [e]
  linear_combination -(p.coef * r.coef * ψ (j ^^^ p.x ^^^ r.x)) * h2

/-! ## sums over a state -/

theorem sum_xor {S : Type} [AddCommMonoid S] {B n : Nat} {c v x : U64} (h : FlipOK B n c v x) (f : U64 → S) :
    ∑ j ∈ indices (B * 2 ^ n), f (j ^^^ x) = ∑ j ∈ indices (B * 2 ^ n), f j := by
  refine Finset.sum_nbij' (· ^^^ x) (· ^^^ x) ?_ ?_ ?_ ?_ ?_
  · intro j hj; rw [mem_indices h.size] at hj ⊢; exact (h.inState_xor j).2 hj
  · intro j hj; rw [mem_indices h.size] at hj ⊢; exact (h.inState_xor j).2 hj
  · intro j _; exact xor_xor_cancel j x
  · intro j _; exact xor_xor_cancel j x
  · intro j _; rfl

theorem conj_I_zpow (a : ℤ) : (starRingEnd ℂ) (Complex.I ^ a) = Complex.I ^ (-a) := by
  rw [map_zpow₀, Complex.conj_I, zpow_neg, ← inv_zpow, Complex.inv_I]

theorem flipOK_zero {n : Nat} {x : U64} (hn : n ≤ 64) (hx : x.toNat < 2 ^ n) : FlipOK 1 n 0 0 x :=
  ⟨by rw [Nat.one_mul]; exact Nat.pow_le_pow_right (by omega) hn, by
    rw [show (0 : U64).toNat = 0 from rfl]; exact Nat.two_pow_pos n, hx, by intro i; simp, by intro i; simp⟩

/-- Pauli strings are self-adjoint -/
theorem inner_pauliAct {B n : Nat} {c v x : U64} (h : FlipOK B n c v x) (z : U64) (φ ψ : U64 → ℂ) :
    inner (B * 2 ^ n) φ (pauliAct x z ψ) = inner (B * 2 ^ n) (pauliAct x z φ) ψ := by
  unfold inner
  rw [← sum_xor h (fun j => (starRingEnd ℂ) (pauliAct x z φ j) * ψ j)]
  apply Finset.sum_congr rfl
  intro j _
  unfold pauliAct
  rw [map_mul, conj_I_zpow, xor_xor_cancel]
  have : Complex.I ^ pauliExp x z j = Complex.I ^ (-pauliExp x z (j ^^^ x)) := by
    apply I_zpow_congr
    have h1 := (pauliExp_xor x z j).neg
    refine Int.ModEq.trans ?_ h1.symm
    unfold pauliExp
    rw [Int.modEq_iff_dvd]
    exact ⟨-(popcount (j &&& z) : ℤ), by ring⟩
  rw [this]; ring

/-- `get_dagger` is the adjoint -/
theorem dagger_spec {B n : Nat} {c v : U64} (p : PauliOp) (h : FlipOK B n c v p.x) (φ ψ : U64 → ℂ) :
    inner (B * 2 ^ n) φ (PauliAct p ψ) = inner (B * 2 ^ n) (PauliAct p.dagger φ) ψ := by
  have e1 : inner (B * 2 ^ n) φ (PauliAct p ψ) = p.coef * inner (B * 2 ^ n) φ (pauliAct p.x p.z ψ) := by
    unfold inner PauliAct
    rw [Finset.mul_sum]
    apply Finset.sum_congr rfl; intro j _; ring
  have e2 : inner (B * 2 ^ n) (PauliAct p.dagger φ) ψ = p.coef * inner (B * 2 ^ n) (pauliAct p.x p.z φ) ψ := by
    unfold inner PauliAct PauliOp.dagger
    rw [Finset.mul_sum]
    apply Finset.sum_congr rfl; intro j _
    rw [map_mul, Complex.conj_conj]; ring
  rw [e1, e2, inner_pauliAct h]

theorem insertZero_bit {p : Nat} (hp : p < 64) (i : U64) : insertZero i (1#64 <<< p) = insertZeroAt i p := by
  obtain ⟨q, m', hq, hset, hlow, hrest⟩ := insertZeroLoop_step i (1#64 <<< p) (by
    intro e
    have := getLsbD_one_shl hp p
    rw [e] at this; simp at this)
  rw [getLsbD_one_shl hp] at hset
  obtain rfl : q = p := by simpa using hset
  have hm' : m' = 0 := by
    apply U64.ext; intro k hk
    rw [hrest.1 k, getLsbD_one_shl hp]
    by_cases e : k = q <;> simp [e]
  show insertZeroLoop i (1#64 <<< q) = _
  rw [hrest.2.2, hm', insertZeroLoop_zero]

end Verif.Proofs
