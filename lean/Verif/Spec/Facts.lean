import Verif.Spec.State
import Verif.Core.Block
import Mathlib.Algebra.BigOperators.Ring.Finset
import Mathlib.Tactic.Ring
import Mathlib.Tactic.Abel

/-! # Facts about the specification -/

namespace Verif.Spec
open Verif
attribute [-simp] BitVec.getLsbD_eq_getElem

theorem getLsbD_setBit (j : U64) {q : Nat} (hq : q < 64) (b : Bool) (i : Nat) :
    (setBit j q b).getLsbD i = if i = q then b else j.getLsbD i := by
  have h := isBit_ofNat hq
  unfold setBit
  cases b with
  | true =>
    simp only [if_true]
    rw [getLsbD_or_bit h]
    by_cases hi : i = q <;> simp [hi]
  | false =>
    simp only [Bool.false_eq_true, if_false]
    rw [BitVec.getLsbD_and, BitVec.getLsbD_not, h.2]
    by_cases hi : i = q
    · simp [hi]
    · by_cases h64 : i < 64
      · simp [hi, h64]
      · simp [hi, getLsbD_high j (by omega : 64 ≤ i)]

theorem setBit_self (j : U64) {q : Nat} (hq : q < 64) : setBit j q (j.getLsbD q) = j := by
  apply U64.ext; intro i _
  rw [getLsbD_setBit j hq]
  split
  · subst_vars; rfl
  · rfl

theorem setBit_comm (j : U64) {p q : Nat} (hp : p < 64) (hq : q < 64) (hne : p ≠ q) (a b : Bool) :
    setBit (setBit j p a) q b = setBit (setBit j q b) p a := by
  apply U64.ext; intro i _
  rw [getLsbD_setBit _ hq, getLsbD_setBit _ hp, getLsbD_setBit _ hp, getLsbD_setBit _ hq]
  by_cases h1 : i = p <;> by_cases h2 : i = q <;> simp_all

theorem setBit_setBit (j : U64) {q : Nat} (hq : q < 64) (a b : Bool) :
    setBit (setBit j q a) q b = setBit j q b := by
  apply U64.ext; intro i _
  rw [getLsbD_setBit _ hq, getLsbD_setBit _ hq, getLsbD_setBit _ hq]
  split <;> rfl

theorem or_bit_eq {t : U64} {q : Nat} (h : IsBit t q) (j : U64) : j ||| t = setBit j q true := by
  rw [h.eq]; rfl

theorem and_not_bit_eq {t : U64} {q : Nat} (h : IsBit t q) (j : U64) : j &&& ~~~t = setBit j q false := by
  rw [h.eq]; rfl

variable {R : Type}

theorem applyMat_nil [AddCommMonoid R] [Mul R] (U : Nat → Nat → R) (cs : List (Nat × Bool)) (ψ : U64 → R)
    (j : U64) : applyMat [] U cs ψ j = if CtrlOK cs j then U 0 0 * ψ j else ψ j := by
  simp [applyMat, getBits, putBits]

theorem applyMat_one [AddCommMonoid R] [Mul R] (q : Nat) (U : Nat → Nat → R) (cs : List (Nat × Bool))
    (ψ : U64 → R) (j : U64) : applyMat [q] U cs ψ j = if CtrlOK cs j then
      U (j.getLsbD q).toNat 0 * ψ (setBit j q false) + U (j.getLsbD q).toNat 1 * ψ (setBit j q true)
      else ψ j := by
  simp [applyMat, getBits, putBits, Finset.sum_range_succ]

theorem applyMat_two [AddCommMonoid R] [Mul R] (q0 q1 : Nat) (U : Nat → Nat → R) (cs : List (Nat × Bool))
    (ψ : U64 → R) (j : U64) : applyMat [q0, q1] U cs ψ j = if CtrlOK cs j then
      U ((j.getLsbD q0).toNat + 2 * (j.getLsbD q1).toNat) 0 * ψ (setBit (setBit j q0 false) q1 false) +
      U ((j.getLsbD q0).toNat + 2 * (j.getLsbD q1).toNat) 1 * ψ (setBit (setBit j q0 true) q1 false) +
      U ((j.getLsbD q0).toNat + 2 * (j.getLsbD q1).toNat) 2 * ψ (setBit (setBit j q0 false) q1 true) +
      U ((j.getLsbD q0).toNat + 2 * (j.getLsbD q1).toNat) 3 * ψ (setBit (setBit j q0 true) q1 true)
      else ψ j := by
  simp [applyMat, getBits, putBits, Finset.sum_range_succ]

/-- one-target kernels compute the specified operator -/
theorem oneTarget_spec [AddCommMonoid R] [Mul R] {B n q : Nat} {t c v : U64} (h : MasksOK B n t c v)
    (hq : IsBit t q) (cs : List (Nat × Bool)) (hcs : ∀ j : U64, j &&& c = v ↔ CtrlOK cs j)
    (g : U64 → Prog U64 R Unit) (U : Nat → Nat → R) (m : U64 → R)
    (hwithin : ∀ b, b ≠ b ||| t → (g b).Within (fun j => j = b ∨ j = b ||| t))
    (h0 : ∀ b, b ≠ b ||| t → (g b).exec m b = U 0 0 * m b + U 0 1 * m (b ||| t))
    (h1 : ∀ b, b ≠ b ||| t → (g b).exec m (b ||| t) = U 1 0 * m b + U 1 1 * m (b ||| t)) :
    Runs (InState (B * 2 ^ n))
      (parallelFor (workItems (B * 2 ^ n) (t ||| c)) (fun it => g (insertZero it (t ||| c) ||| v))) m
      (onState (B * 2 ^ n) (applyMat [q] U cs) m) := by
  refine oneTarget_runs h hq g (fun x y => U 0 0 * x + U 0 1 * y) (fun x y => U 1 0 * x + U 1 1 * y)
    m _ hwithin h0 h1 ?_
  intro j
  unfold onState
  by_cases hin : j.toNat < B * 2 ^ n
  · rw [if_pos hin, applyMat_one]
    by_cases hc : CtrlOK cs j
    · rw [if_pos hc, if_pos ⟨hin, (hcs j).2 hc⟩]
      cases hb : j.getLsbD q
      · have := setBit_self j hq.1
        rw [hb] at this
        simp [this, or_bit_eq hq]
      · have := setBit_self j hq.1
        rw [hb] at this
        simp [this, and_not_bit_eq hq]
    · rw [if_neg hc, if_neg (fun hh => hc ((hcs j).1 hh.2))]
  · rw [if_neg hin, if_neg (fun hh => hin hh.1)]

/-- two-target kernels compute the specified operator -/
theorem twoTarget_spec [AddCommMonoid R] [Mul R] {B n q0 q1 : Nat} {t t0 t1 c v : U64} (ht : t = t0 ||| t1)
    (h : MasksOK B n t c v) (hq0 : IsBit t0 q0) (hq1 : IsBit t1 q1) (hne : q0 ≠ q1)
    (cs : List (Nat × Bool)) (hcs : ∀ j : U64, j &&& c = v ↔ CtrlOK cs j)
    (g : U64 → Prog U64 R Unit) (U : Nat → Nat → R) (m : U64 → R)
    (hwithin : ∀ b, Distinct4 b t0 t1 →
      (g b).Within (fun j => j = b ∨ j = b ||| t0 ∨ j = b ||| t1 ∨ j = b ||| t0 ||| t1))
    (h00 : ∀ b, Distinct4 b t0 t1 → (g b).exec m b =
      U 0 0 * m b + U 0 1 * m (b ||| t0) + U 0 2 * m (b ||| t1) + U 0 3 * m (b ||| t0 ||| t1))
    (h10 : ∀ b, Distinct4 b t0 t1 → (g b).exec m (b ||| t0) =
      U 1 0 * m b + U 1 1 * m (b ||| t0) + U 1 2 * m (b ||| t1) + U 1 3 * m (b ||| t0 ||| t1))
    (h01 : ∀ b, Distinct4 b t0 t1 → (g b).exec m (b ||| t1) =
      U 2 0 * m b + U 2 1 * m (b ||| t0) + U 2 2 * m (b ||| t1) + U 2 3 * m (b ||| t0 ||| t1))
    (h11 : ∀ b, Distinct4 b t0 t1 → (g b).exec m (b ||| t0 ||| t1) =
      U 3 0 * m b + U 3 1 * m (b ||| t0) + U 3 2 * m (b ||| t1) + U 3 3 * m (b ||| t0 ||| t1)) :
    Runs (InState (B * 2 ^ n))
      (parallelFor (workItems (B * 2 ^ n) (t ||| c)) (fun it => g (insertZero it (t ||| c) ||| v))) m
      (onState (B * 2 ^ n) (applyMat [q0, q1] U cs) m) := by
  refine twoTarget_runs ht h hq0 hq1 hne g
    (fun x0 x1 a b c d => U (x0.toNat + 2 * x1.toNat) 0 * a + U (x0.toNat + 2 * x1.toNat) 1 * b +
      U (x0.toNat + 2 * x1.toNat) 2 * c + U (x0.toNat + 2 * x1.toNat) 3 * d)
    m _ hwithin h00 h10 h01 h11 ?_
  intro j
  unfold onState
  by_cases hin : j.toNat < B * 2 ^ n
  · rw [if_pos hin, applyMat_two]
    by_cases hc : CtrlOK cs j
    · rw [if_pos hc, if_pos ⟨hin, (hcs j).2 hc⟩]
      simp only [or_bit_eq hq0, or_bit_eq hq1, and_not_bit_eq hq0, and_not_bit_eq hq1]
    · rw [if_neg hc, if_neg (fun hh => hc ((hcs j).1 hh.2))]
  · rw [if_neg hin, if_neg (fun hh => hin hh.1)]

/-- kernels without targets compute the specified operator -/
theorem zeroTarget_spec [AddCommMonoid R] [Mul R] {B n : Nat} {c v : U64} (h : MasksOK B n 0 c v)
    (cs : List (Nat × Bool)) (hcs : ∀ j : U64, j &&& c = v ↔ CtrlOK cs j)
    (g : U64 → Prog U64 R Unit) (U : Nat → Nat → R) (m : U64 → R)
    (hwithin : ∀ b, (g b).Within (fun j => j = b))
    (h0 : ∀ b, (g b).exec m b = U 0 0 * m b) :
    Runs (InState (B * 2 ^ n))
      (parallelFor (workItems (B * 2 ^ n) c) (fun it => g (insertZero it c ||| v))) m
      (onState (B * 2 ^ n) (applyMat [] U cs) m) := by
  have hz : (0 : U64) ||| c = c := by simp
  have := maskKernel_runs h g m (onState (B * 2 ^ n) (applyMat [] U cs) m) ?_ ?_ ?_
  · rw [hz] at this; exact this
  · intro b _
    refine Prog.within_mono ?_ (hwithin b)
    rintro a rfl i _ _; rfl
  · intro b j hb hj
    obtain rfl : j = b := U64.ext fun i hi => hj i hi (by simp)
    have hmem := inBlock_mem h hb hj
    unfold onState
    rw [if_pos (show j.toNat < _ from hmem.1), applyMat_nil, if_pos ((hcs j).1 hmem.2), h0]
  · intro j hj
    unfold onState
    split
    · rename_i hin
      rw [applyMat_nil, if_neg]
      intro hc; exact hj ⟨hin, (hcs j).2 hc⟩
    · rfl

end Verif.Spec
