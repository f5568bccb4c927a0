import Verif.Proofs.PauliKernel
import Verif.Proofs.MaskVec
import Verif.Spec.Pauli
import Mathlib.Tactic.FieldSimp
import Mathlib.Tactic.IntervalCases
import Mathlib.Tactic.LinearCombination

/-! # Normal form of a Pauli string: a phase, a sign and a permutation of the indices -/

namespace Verif.Proofs
open Verif Verif.Spec Verif.Model
attribute [-simp] BitVec.getLsbD_eq_getElem

/-! ## powers of `i` -/

theorem imagUnit_eq : imagUnit = Complex.I := rfl

theorem I_zpow_four : Complex.I ^ (4 : ℤ) = 1 := by
  rw [show (4 : ℤ) = ((4 : ℕ) : ℤ) from rfl, zpow_natCast, Complex.I_pow_four]

theorem I_zpow_congr {a b : ℤ} (h : a ≡ b [ZMOD 4]) : Complex.I ^ a = Complex.I ^ b := by
  obtain ⟨k, hk⟩ := h.symm.dvd
  rw [show a = b + 4 * k by omega, zpow_add₀ Complex.I_ne_zero, zpow_mul, I_zpow_four, one_zpow, mul_one]

theorem I_zpow_add (a b : ℤ) : Complex.I ^ (a + b) = Complex.I ^ a * Complex.I ^ b :=
  zpow_add₀ Complex.I_ne_zero a b

theorem I_zpow_two_mul (k : ℕ) : Complex.I ^ (2 * (k : ℤ)) = (-1) ^ k := by
  rw [zpow_mul, show Complex.I ^ (2 : ℤ) = -1 from by
    rw [show (2 : ℤ) = ((2 : ℕ) : ℤ) from rfl, zpow_natCast, Complex.I_sq], zpow_natCast]

theorem fin4_cases {motive : Fin 4 → Prop} (h0 : motive 0) (h1 : motive 1) (h2 : motive 2) (h3 : motive 3)
    (k : Fin 4) : motive k := by
  match k with
  | 0 => exact h0
  | 1 => exact h1
  | 2 => exact h2
  | 3 => exact h3

theorem phase90_eq (k : Nat) : phase90 k = Complex.I ^ (k : ℤ) := by
  have hk : (k : ℤ) ≡ ((k % 4 : ℕ) : ℤ) [ZMOD 4] := by
    rw [Int.natCast_mod]; exact (Int.mod_modEq _ _).symm
  rw [I_zpow_congr hk, zpow_natCast]
  unfold phase90
  have e : k % 4 = (Fin.ofNat 4 k).val := rfl
  rw [e]
  generalize Fin.ofNat 4 k = r
  induction r using fin4_cases
  · simp
  · simp [imagUnit_eq]
  · simp
  · simp [imagUnit_eq, pow_succ]

theorem phaseM90_eq (k : Nat) : phaseM90 k = Complex.I ^ (-(k : ℤ)) := by
  have hk : -(k : ℤ) ≡ -((k % 4 : ℕ) : ℤ) [ZMOD 4] := by
    apply Int.ModEq.neg
    rw [Int.natCast_mod]; exact (Int.mod_modEq _ _).symm
  rw [I_zpow_congr hk, zpow_neg, zpow_natCast]
  unfold phaseM90
  have e : k % 4 = (Fin.ofNat 4 k).val := rfl
  rw [e]
  generalize Fin.ofNat 4 k = r
  induction r using fin4_cases
  · simp
  · simp [imagUnit_eq]
  · simp
  · simp [imagUnit_eq, pow_succ]

/-! ## the normal form -/

/-- exponent of `i` in row `j` of the Pauli string with masks `x`, `z` -/
def pauliExp (x z j : U64) : ℤ := -(popcount (x &&& z) : ℤ) + 2 * (popcount (j &&& z) : ℤ)

/-- the Pauli string with masks `x`, `z` -/
noncomputable def pauliAct (x z : U64) (ψ : U64 → ℂ) : U64 → ℂ := fun j =>
  Complex.I ^ pauliExp x z j * ψ (j ^^^ x)

theorem oddParity_iff (m : U64) : oddParity m = true ↔ popcount m % 2 = 1 := by
  unfold oddParity; simp

theorem sign_eq (m : U64) (a : ℂ) :
    (if oddParity m = true then -a else a) = Complex.I ^ (2 * (popcount m : ℤ)) * a := by
  rw [I_zpow_two_mul]
  split
  · rename_i h
    rw [oddParity_iff] at h
    rw [(Nat.odd_iff.2 h).neg_one_pow]; ring
  · rename_i h
    rw [oddParity_iff] at h
    rw [(Nat.even_iff.2 (by omega)).neg_one_pow]; ring

theorem pauliExp_zero (j : U64) : pauliExp 0 0 j = 0 := by
  unfold pauliExp
  have h1 : (0 : U64) &&& 0 = 0 := rfl
  have h2 : j &&& 0 = 0 := by apply U64.ext; intro i _; simp
  rw [h1, h2, popcount_zero]; simp

theorem xor_zero' (j : U64) : j ^^^ 0 = j := by apply U64.ext; intro i _; simp

theorem pauliAct_zero (ψ : U64 → ℂ) : pauliAct 0 0 ψ = ψ := by
  funext j
  unfold pauliAct
  rw [pauliExp_zero, xor_zero']; simp

/-- the letter at one qubit -/
def letter : Bool → Bool → Pauli1
  | false, false => .I
  | true, false => .X
  | true, true => .Y
  | false, true => .Z

theorem pauliX_entries : pauliX 0 0 = 0 ∧ pauliX 0 1 = 1 ∧ pauliX 1 0 = 1 ∧ pauliX 1 1 = 0 := by
  simp [pauliX, mat2]
theorem pauliY_entries : pauliY 0 0 = 0 ∧ pauliY 0 1 = -Complex.I ∧ pauliY 1 0 = Complex.I ∧ pauliY 1 1 = 0 := by
  simp [pauliY, mat2]
theorem pauliZ_entries : pauliZ 0 0 = 1 ∧ pauliZ 0 1 = 0 ∧ pauliZ 1 0 = 0 ∧ pauliZ 1 1 = -1 := by
  simp [pauliZ, mat2]

/-- set bit `q` of a mask if `b` -/
def addBit (m : U64) (q : Nat) (b : Bool) : U64 := if b then m ||| (1#64 <<< q) else m

theorem getLsbD_addBit (m : U64) {q : Nat} (hq : q < 64) (b : Bool) (i : Nat) :
    (addBit m q b).getLsbD i = (m.getLsbD i || (b && decide (i = q))) := by
  unfold addBit
  cases b
  · simp
  · simp [BitVec.getLsbD_or, getLsbD_one_shl hq]

theorem addBit_eq {m : U64} {q : Nat} (hq : q < 64) (hm : m.getLsbD q = false) (b : Bool) :
    addBit m q b = setBit m q b := by
  apply U64.ext; intro i _
  rw [getLsbD_addBit m hq, getLsbD_setBit m hq]
  by_cases e : i = q
  · subst e; simp [hm]
  · simp [e]

/-- adding one letter to a Pauli string multiplies by the one-qubit matrix -/
theorem pauliAct_add {x z : U64} {q : Nat} (hq : q < 64) (hx : x.getLsbD q = false) (hz : z.getLsbD q = false)
    (bx bz : Bool) (ψ : U64 → ℂ) :
    applyMat [q] (pauli1Mat (letter bx bz)) [] (pauliAct x z ψ) = pauliAct (addBit x q bx) (addBit z q bz) ψ := by
  funext j
  rw [applyMat_one, if_pos (by simp [CtrlOK] : CtrlOK [] j)]
  have key : ∀ b, pauliAct x z ψ (setBit j q b) =
      Complex.I ^ pauliExp x z j * ψ (setBit (j ^^^ x) q b) := by
    intro b
    unfold pauliAct pauliExp
    have e1 : setBit j q b &&& z = j &&& z := by
      apply U64.ext; intro i _
      rw [BitVec.getLsbD_and, BitVec.getLsbD_and, getLsbD_setBit j hq]
      by_cases e : i = q
      · subst e; simp [hz]
      · simp [e]
    have e2 : setBit j q b ^^^ x = setBit (j ^^^ x) q b := by
      apply U64.ext; intro i _
      rw [BitVec.getLsbD_xor, getLsbD_setBit j hq, getLsbD_setBit _ hq]
      by_cases e : i = q
      · subst e; simp [hx]
      · simp [e, BitVec.getLsbD_xor]
    rw [e1, e2]
  rw [key, key]
  unfold pauliAct
  have e3 : j ^^^ addBit x q bx = setBit (j ^^^ x) q (j.getLsbD q ^^ bx) := by
    apply U64.ext; intro i _
    rw [BitVec.getLsbD_xor, getLsbD_addBit _ hq, getLsbD_setBit _ hq]
    by_cases e : i = q
    · subst e; simp [hx]
    · simp [e, BitVec.getLsbD_xor]
  have hand : ∀ (a b : U64) (ba bb : Bool), (a.getLsbD q = false) → b.getLsbD q = false →
      popcount (addBit a q ba &&& addBit b q bb) = popcount (a &&& b) + (ba && bb).toNat := by
    intro a b ba bb ha hb
    have : addBit a q ba &&& addBit b q bb = addBit (a &&& b) q (ba && bb) := by
      apply U64.ext; intro i _
      rw [BitVec.getLsbD_and, getLsbD_addBit _ hq, getLsbD_addBit _ hq, getLsbD_addBit _ hq, BitVec.getLsbD_and]
      by_cases e : i = q
      · subst e; simp [ha, hb]
      · simp [e]
    rw [this]
    unfold addBit
    cases ba && bb
    · simp
    · rw [if_pos rfl, popcount_or_disj, popcount_isBit hq (getLsbD_one_shl hq)]
      · rfl
      · intro i
        rw [getLsbD_one_shl hq, BitVec.getLsbD_and]
        by_cases e : i = q
        · subst e; simp [ha]
        · simp [e]
  have e4 : pauliExp (addBit x q bx) (addBit z q bz) j =
      pauliExp x z j + (-((bx && bz).toNat : ℤ) + 2 * ((j.getLsbD q && bz).toNat : ℤ)) := by
    unfold pauliExp
    rw [hand x z bx bz hx hz]
    have hj : j &&& addBit z q bz = addBit (setBit j q false) q (j.getLsbD q) &&& addBit z q bz := by
      rw [addBit_eq (m := setBit j q false) hq (by rw [getLsbD_setBit _ hq]; simp), setBit_setBit _ hq, setBit_self _ hq]
    have hj2 : j &&& z = setBit j q false &&& z := by
      apply U64.ext; intro i _
      rw [BitVec.getLsbD_and, BitVec.getLsbD_and, getLsbD_setBit j hq]
      by_cases e : i = q
      · subst e; simp [hz]
      · simp [e]
    rw [hj, hand _ _ _ _ (by rw [getLsbD_setBit _ hq]; simp) hz, hj2]
    push_cast; ring
  rw [e3, e4, I_zpow_add]
  have m0 : ∀ a b : ℕ, (matOne a b : ℂ) = if a = b then 1 else 0 := fun _ _ => rfl
  obtain ⟨x1, x2, x3, x4⟩ := pauliX_entries
  obtain ⟨y1, y2, y3, y4⟩ := pauliY_entries
  obtain ⟨z1, z2, z3, z4⟩ := pauliZ_entries
  have i1 : Complex.I ^ (-1 : ℤ) = -Complex.I := by simp
  have i2 : Complex.I ^ (-1 + 2 : ℤ) = Complex.I := by norm_num
  have i3 : Complex.I ^ (2 : ℤ) = -1 := by
    rw [show (2 : ℤ) = ((2 : ℕ) : ℤ) from rfl, zpow_natCast, Complex.I_sq]
  cases bx <;> cases bz <;> cases hj : j.getLsbD q <;>
    simp [letter, pauli1Mat, m0, x1, x2, x3, x4, y1, y2, y3, y4, z1, z2, z3, z4, i1, i3]
  all_goals ring

end Verif.Proofs
