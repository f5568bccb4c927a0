import Verif.Proofs.PauliAct
import Verif.Proofs.Gate2

/-! # Pauli application, Pauli rotation, construction of Pauli operators -/

namespace Verif.Proofs
open Verif Verif.Spec Verif.Model
attribute [-simp] BitVec.getLsbD_eq_getElem

/-! ## kernels -/

theorem pauliExp_xor (x z j : U64) :
    pauliExp x z (j ^^^ x) ≡ (popcount (x &&& z) : ℤ) + 2 * (popcount (j &&& z) : ℤ) [ZMOD 4] := by
  unfold pauliExp
  have e : (j ^^^ x) &&& z = (j &&& z) ^^^ (x &&& z) := by
    apply U64.ext; intro i _
    simp only [BitVec.getLsbD_and, BitVec.getLsbD_xor]
    cases j.getLsbD i <;> cases x.getLsbD i <;> cases z.getLsbD i <;> rfl
  have := popcount_xor (j &&& z) (x &&& z)
  rw [e]
  have h' : (popcount ((j &&& z) ^^^ (x &&& z)) : ℤ) + 2 * (popcount ((j &&& z) &&& (x &&& z)) : ℤ) =
    popcount (j &&& z) + popcount (x &&& z) := by exact_mod_cast this
  rw [Int.modEq_iff_dvd]
  exact ⟨(popcount ((j &&& z) &&& (x &&& z)) : ℤ), by linarith⟩

theorem FlipOK.masks0 {B n : Nat} {c v x : U64} (h : FlipOK B n c v x) : MasksOK B n 0 c v :=
  ⟨h.size, by
    have : (0 : U64) ||| c = c := by simp
    rw [this]; exact h.cfits, by intro i; simp, h.sub⟩

theorem pauliAct_diag (z : U64) (ψ : U64 → ℂ) (j : U64) :
    pauliAct 0 z ψ j = Complex.I ^ (2 * (popcount (j &&& z) : ℤ)) * ψ j := by
  unfold pauliAct pauliExp
  have : (0 : U64) &&& z = 0 := by apply U64.ext; intro i _; simp
  rw [xor_zero', this, popcount_zero]; simp

/-- `apply_pauli` applies `coef ·` the Pauli string where the controls hold -/
theorem applyPauli_runs {B n : Nat} {c v x : U64} (h : FlipOK B n c v x) (z : U64) (coef : ℂ)
    (cs : List (Nat × Bool)) (hcs : ∀ j : U64, j &&& c = v ↔ CtrlOK cs j) (ψ : U64 → ℂ) :
    DRuns (B * 2 ^ n) (applyPauli c v x z coef (B * 2 ^ n)) ψ
      (onState (B * 2 ^ n) (fun φ j => if CtrlOK cs j then coef * pauliAct x z φ j else φ j) ψ) := by
  have hout : ∀ j, ¬ (InState (B * 2 ^ n) j ∧ j &&& c = v) →
      onState (B * 2 ^ n) (fun φ j => if CtrlOK cs j then coef * pauliAct x z φ j else φ j) ψ j = ψ j := by
    intro j hj
    unfold onState
    split
    · rename_i hin
      dsimp only
      rw [if_neg]
      intro hc; exact hj ⟨hin, (hcs j).2 hc⟩
    · rfl
  have hval : ∀ b, InState (B * 2 ^ n) b → b &&& c = v →
      onState (B * 2 ^ n) (fun φ j => if CtrlOK cs j then coef * pauliAct x z φ j else φ j) ψ b =
      coef * pauliAct x z ψ b := by
    intro b hb hc
    unfold onState
    rw [if_pos (show b.toNat < _ from hb)]; dsimp only
    rw [if_pos ((hcs b).1 hc)]
  unfold applyPauli
  split
  · rename_i hx
    subst hx
    refine scaleKernel_runs h.masks0
      (fun idx => if oddParity (idx &&& z) then mulCell idx (-coef) else mulCell idx coef) ψ _ ?_ ?_ hout
    · intro b
      split <;> simp [mulCell, Prog.store_def, Prog.Within]
    · intro b hb hc
      rw [hval b hb hc, pauliAct_diag]
      have := sign_eq (b &&& z) (ψ b)
      rw [← this]
      split <;> simp [mulCell, Prog.store_def, Prog.exec, mul_comm]
  · rename_i hx
    refine flipKernel_runs h hx (fun basis0 => do
      let a ← Prog.load basis0
      let b ← Prog.load (basis0 ^^^ x)
      let tmp1 := a * phaseM90 (popcount (x &&& z))
      let tmp2 := b * phaseM90 (popcount (x &&& z))
      let tmp2 := if oddParity (basis0 &&& z) then -tmp2 else tmp2
      let tmp1 := if oddParity ((basis0 ^^^ x) &&& z) then -tmp1 else tmp1
      Prog.store basis0 (tmp2 * coef)
      Prog.store (basis0 ^^^ x) (tmp1 * coef)) ψ _ ?_ ?_ ?_ hout
    · intro b; simp [Prog.store_def, Prog.Within]
    · intro b hb hc
      rw [hval b hb hc]
      simp only [Prog.bind_load, Prog.bind_write, Prog.bind_pure', Prog.store_def, Prog.exec]
      rw [update_ne _ (xor_ne hx b), update_same, sign_eq, phaseM90_eq]
      unfold pauliAct pauliExp
      rw [I_zpow_add]; ring
    · intro b hb hc
      rw [hval _ ((h.inState_xor b).2 hb) ((h.ctrl_xor b).2 hc)]
      simp only [Prog.bind_load, Prog.bind_write, Prog.bind_pure', Prog.store_def, Prog.exec]
      rw [update_same, sign_eq, phaseM90_eq]
      unfold pauliAct pauliExp
      rw [I_zpow_add, xor_xor_cancel]; ring

/-- `apply_pauli_rotation` -/
theorem applyPauliRotation_runs {B n : Nat} {c v x : U64} (h : FlipOK B n c v x) (z : U64) (coef : ℂ) (angle : ℝ)
    (cs : List (Nat × Bool)) (hcs : ∀ j : U64, j &&& c = v ↔ CtrlOK cs j) (ψ : U64 → ℂ) :
    DRuns (B * 2 ^ n) (applyPauliRotation c v x z coef angle (B * 2 ^ n)) ψ
      (onState (B * 2 ^ n) (fun φ j => if CtrlOK cs j then
        Complex.cos (angle * coef / 2) * φ j - Complex.I * Complex.sin (angle * coef / 2) * pauliAct x z φ j
        else φ j) ψ) := by
  set F : (U64 → ℂ) → U64 → ℂ := (fun φ j => if CtrlOK cs j then
        Complex.cos (angle * coef / 2) * φ j - Complex.I * Complex.sin (angle * coef / 2) * pauliAct x z φ j
        else φ j) with hF
  have hout : ∀ j, ¬ (InState (B * 2 ^ n) j ∧ j &&& c = v) → onState (B * 2 ^ n) F ψ j = ψ j := by
    intro j hj
    unfold onState
    split
    · rename_i hin
      rw [hF]; dsimp only
      rw [if_neg]
      intro hc; exact hj ⟨hin, (hcs j).2 hc⟩
    · rfl
  have hval : ∀ b, InState (B * 2 ^ n) b → b &&& c = v → onState (B * 2 ^ n) F ψ b =
      Complex.cos (angle * coef / 2) * ψ b - Complex.I * Complex.sin (angle * coef / 2) * pauliAct x z ψ b := by
    intro b hb hc
    unfold onState
    rw [if_pos (show b.toNat < _ from hb), hF]; dsimp only
    rw [if_pos ((hcs b).1 hc)]
  have hpar : ∀ m : U64, Complex.I ^ (2 * (popcount m : ℤ)) = Complex.I ^ (-(2 * ((popcount m % 2 : ℕ) : ℤ))) := by
    intro m
    apply I_zpow_congr
    rw [Int.modEq_iff_dvd]
    refine ⟨-((popcount m % 2 : ℕ) : ℤ) - ((popcount m / 2 : ℕ) : ℤ), ?_⟩
    push_cast
    omega
  have hcos : Complex.cos (-((angle : ℂ) * coef / 2)) = Complex.cos (angle * coef / 2) := Complex.cos_neg _
  have hsin : Complex.sin (-((angle : ℂ) * coef / 2)) = -Complex.sin (angle * coef / 2) := Complex.sin_neg _
  unfold applyPauliRotation
  dsimp only
  rw [hcos, hsin]
  split
  · rename_i hx
    subst hx
    refine scaleKernel_runs h.masks0
      (fun idx => if oddParity (idx &&& z) then
        mulCell idx (Complex.cos (angle * coef / 2) - imagUnit * -Complex.sin (angle * coef / 2)) else
        mulCell idx (Complex.cos (angle * coef / 2) + imagUnit * -Complex.sin (angle * coef / 2))) ψ _ ?_ ?_ hout
    · intro b
      split <;> simp [mulCell, Prog.store_def, Prog.Within]
    · intro b hb hc
      rw [hval b hb hc, pauliAct_diag]
      have := sign_eq (b &&& z) (ψ b)
      rw [← this]
      split <;> simp [mulCell, Prog.store_def, Prog.exec, imagUnit_eq] <;> ring
  · rename_i hx
    refine flipKernel_runs h hx (fun basis0 => do
      let basis1 := basis0 ^^^ x
      let parity0 := popcount (basis0 &&& z) % 2
      let parity1 := popcount (basis1 &&& z) % 2
      let cval0 ← Prog.load basis0
      let cval1 ← Prog.load basis1
      Prog.store basis0 (Complex.cos (angle * coef / 2) * cval0 + imagUnit * -Complex.sin (angle * coef / 2) * cval1 *
        phaseM90 (popcount (x &&& z) + parity0 * 2))
      Prog.store basis1 (Complex.cos (angle * coef / 2) * cval1 + imagUnit * -Complex.sin (angle * coef / 2) * cval0 *
        phaseM90 (popcount (x &&& z) + parity1 * 2))) ψ _ ?_ ?_ ?_ hout
    · intro b; simp [Prog.store_def, Prog.Within]
    · intro b hb hc
      rw [hval b hb hc]
      simp only [Prog.bind_load, Prog.bind_write, Prog.bind_pure', Prog.store_def, Prog.exec]
      rw [update_ne _ (xor_ne hx b), update_same, phaseM90_eq]
      unfold pauliAct pauliExp
      rw [I_zpow_add, hpar, ← I_zpow_add, imagUnit_eq]
      push_cast
      rw [show (-(popcount (x &&& z) : ℤ) + -(2 * ((popcount (b &&& z) : ℤ) % 2))) =
        -((popcount (x &&& z) : ℤ) + (popcount (b &&& z) : ℤ) % 2 * 2) by ring]
      ring
    · intro b hb hc
      rw [hval _ ((h.inState_xor b).2 hb) ((h.ctrl_xor b).2 hc)]
      simp only [Prog.bind_load, Prog.bind_write, Prog.bind_pure', Prog.store_def, Prog.exec]
      rw [update_same, phaseM90_eq]
      unfold pauliAct pauliExp
      rw [I_zpow_add, hpar, ← I_zpow_add, imagUnit_eq, xor_xor_cancel]
      push_cast
      rw [show (-(popcount (x &&& z) : ℤ) + -(2 * ((popcount ((b ^^^ x) &&& z) : ℤ) % 2))) =
        -((popcount (x &&& z) : ℤ) + (popcount ((b ^^^ x) &&& z) : ℤ) % 2 * 2) by ring]
      ring

/-! ## strings of letters and masks -/

/-- a string of letters that describes a Pauli operator: non-identity letters on distinct qubits below 64 -/
structure StrOK (l : List (Nat × Pauli1)) : Prop where
  distinct : l.Pairwise (fun a b => a.2 = .I ∨ b.2 = .I ∨ a.1 ≠ b.1)
  lt : ∀ a ∈ l, a.2 ≠ .I → a.1 < 64

def hasX : Pauli1 → Bool
  | .X | .Y => true
  | _ => false
def hasZ : Pauli1 → Bool
  | .Y | .Z => true
  | _ => false

theorem letter_has (P : Pauli1) : letter (hasX P) (hasZ P) = P := by cases P <;> rfl

/-- the bit-flip mask of a string -/
def xMask : List (Nat × Pauli1) → U64
  | [] => 0
  | (q, P) :: l => addBit (xMask l) q (hasX P)
/-- the phase-flip mask of a string -/
def zMask : List (Nat × Pauli1) → U64
  | [] => 0
  | (q, P) :: l => addBit (zMask l) q (hasZ P)

theorem StrOK.tail {a : Nat × Pauli1} {l : List (Nat × Pauli1)} (h : StrOK (a :: l)) : StrOK l :=
  ⟨(List.pairwise_cons.1 h.distinct).2, fun b hb => h.lt b (by simp [hb])⟩

theorem getLsbD_xMask {l : List (Nat × Pauli1)} (h : StrOK l) (i : Nat) :
    (xMask l).getLsbD i = l.any (fun a => hasX a.2 && decide (a.1 = i)) := by
  induction l with
  | nil => simp [xMask]
  | cons a l ih =>
    obtain ⟨q, P⟩ := a
    simp only [xMask, List.any_cons]
    by_cases hP : P = .I
    · subst hP
      simp [addBit, hasX, ih h.tail]
    · rw [getLsbD_addBit _ (h.lt (q, P) (by simp) hP), ih h.tail, Bool.or_comm]
      simp only [eq_comm]

theorem getLsbD_zMask {l : List (Nat × Pauli1)} (h : StrOK l) (i : Nat) :
    (zMask l).getLsbD i = l.any (fun a => hasZ a.2 && decide (a.1 = i)) := by
  induction l with
  | nil => simp [zMask]
  | cons a l ih =>
    obtain ⟨q, P⟩ := a
    simp only [zMask, List.any_cons]
    by_cases hP : P = .I
    · subst hP
      simp [addBit, hasZ, ih h.tail]
    · rw [getLsbD_addBit _ (h.lt (q, P) (by simp) hP), ih h.tail, Bool.or_comm]
      simp only [eq_comm]

theorem has_of {P : Pauli1} : (hasX P = true ∨ hasZ P = true) → P ≠ .I := by
  cases P <;> simp [hasX, hasZ]

theorem applyMat_id_any (q : Nat) (ψ : U64 → ℂ) : applyMat [q] (pauli1Mat .I) [] ψ = ψ := by
  by_cases hq : q < 64
  · exact applyMat_one_id ⟨by simp, by simpa using hq⟩ ψ
  · funext j
    rw [applyMat_one, if_pos (by simp [CtrlOK] : CtrlOK [] j), getLsbD_high j (by omega)]
    have e : BitVec.ofNat 64 (2 ^ q) = 0 := by
      apply U64.ext; intro i hi
      rw [BitVec.getLsbD_ofNat, Nat.testBit_two_pow]
      have : q ≠ i := by omega
      simp [this]
    have e2 : setBit j q false = j := by
      unfold setBit; rw [e]; apply U64.ext; intro i hi
      rw [if_neg (by simp), BitVec.getLsbD_and, BitVec.getLsbD_not]; simp [hi]
    rw [e2]
    simp [pauli1Mat, matOne]

/-- a string of one-qubit Paulis acts as its normal form -/
theorem applyPaulis_eq {l : List (Nat × Pauli1)} (h : StrOK l) (ψ : U64 → ℂ) :
    applyPaulis l ψ = pauliAct (xMask l) (zMask l) ψ := by
  induction l with
  | nil => rw [show xMask [] = 0 from rfl, show zMask [] = 0 from rfl, pauliAct_zero]; rfl
  | cons a l ih =>
    obtain ⟨q, P⟩ := a
    simp only [applyPaulis]
    rw [ih h.tail]
    by_cases hP : P = .I
    · subst hP
      rw [applyMat_id_any]
      simp [xMask, zMask, addBit, hasX, hasZ]
    · have hq := h.lt (q, P) (by simp) hP
      have hd := (List.pairwise_cons.1 h.distinct).1
      have hx : (xMask l).getLsbD q = false := by
        rw [getLsbD_xMask h.tail, List.any_eq_false]
        intro b hb hh
        simp only [Bool.and_eq_true, decide_eq_true_eq] at hh
        rcases hd b hb with e | e | e
        · exact hP e
        · exact has_of (.inl hh.1) e
        · exact e hh.2.symm
      have hz : (zMask l).getLsbD q = false := by
        rw [getLsbD_zMask h.tail, List.any_eq_false]
        intro b hb hh
        simp only [Bool.and_eq_true, decide_eq_true_eq] at hh
        rcases hd b hb with e | e | e
        · exact hP e
        · exact has_of (.inr hh.1) e
        · exact e hh.2.symm
      have := pauliAct_add hq hx hz (hasX P) (hasZ P) ψ
      rw [letter_has] at this
      rw [this]; rfl

end Verif.Proofs
