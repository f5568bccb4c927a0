import Verif.Proofs.Gate1
import Verif.Proofs.DenseGate
import Verif.Proofs.MaskVec
import Verif.Model.Gate2

/-! # Helper lemmas: global phase, Swap, ECR -/

namespace Verif.Proofs
open Verif Verif.Spec Verif.Model
attribute [-simp] BitVec.getLsbD_eq_getElem

theorem polar_eq (x : ℝ) : polar 1 x = cis x := by
  rw [cis_eq]; simp [polar]

theorem bind_ok {α β : Type} {x : Res α} {f : α → Res β} {b : β} (h : (x >>= f) = .ok b) :
    ∃ a, x = .ok a ∧ f a = .ok b := by
  cases x with
  | error e => cases h
  | ok a => exact ⟨a, rfl, h⟩

theorem ok_bind {α β : Type} (a : α) (f : α → Res β) : ((.ok a : Res α) >>= f) = f a := rfl

theorem globalPhase_spec {L B n : Nat} (hL : LanesOK L) {cs vs : List Nat} {o : Operands}
    (hmk : mkOperands [] cs vs = .ok o) (hsize : B * 2 ^ n ≤ 2 ^ 64) {phase : ℝ} {d : Device ℂ}
    (h : globalPhaseUpdate L B n phase o = .ok d) (ψ : U64 → ℂ) :
    DRuns (B * 2 ^ n) d ψ (onState (B * 2 ^ n) (applyMat [] (fun _ _ => cis phase) (ctrlList cs vs)) ψ) := by
  obtain ⟨⟨⟩, hck, hd⟩ := bind_ok h
  obtain rfl : _ = d := Except.ok.inj hd
  have ctx := ctx_of hmk hck hsize
  have ht : o.t = 0 := by
    obtain ⟨-, -, -, -, -, -, -, tb, -, -⟩ := mkOperands_ok hmk
    apply U64.ext; intro i _; rw [tb]; simp
  have hm := ctx.masks
  rw [ht] at hm
  exact zeroTarget_dspec hL hm _ ctx.ctrl _ _ (polar_eq phase).symm ψ

theorem swap_symm {R : Type} [CommSemiring R] {a b : Nat} (ha : a < 64) (hb : b < 64) (hne : a ≠ b)
    {U : Nat → Nat → R} (hU : ∀ r s, r < 4 → s < 4 → U r s = if r % 2 = s / 2 ∧ r / 2 = s % 2 then 1 else 0)
    (cs : List (Nat × Bool)) : applyMat [a, b] U cs = applyMat [b, a] U cs := by
  funext ψ j
  rw [applyMat_two, applyMat_two]
  simp only [setBit_comm j ha hb hne]
  split
  · cases j.getLsbD a <;> cases j.getLsbD b <;> simp [hU]
  · rfl

/-- the swap operator exchanges the two bits -/
theorem swap_explicit {a b : Nat} (cs : List (Nat × Bool)) (ψ : U64 → ℂ) (j : U64) :
    applyMat [a, b] swapMat cs ψ j =
      if CtrlOK cs j then ψ (setBit (setBit j a (j.getLsbD b)) b (j.getLsbD a)) else ψ j := by
  rw [applyMat_two]
  split
  · cases j.getLsbD a <;> cases j.getLsbD b <;> simp [swapMat]
  · rfl

theorem two_bits {a b : Nat} {cs vs : List Nat} {o : Operands} (hmk : mkOperands [a, b] cs vs = .ok o) :
    a ≠ b ∧ a < 64 ∧ b < 64 ∧ ∀ i, o.t.getLsbD i = (decide (i = a) || decide (i = b)) := by
  obtain ⟨tn, tl, -, -, -, -, -, tb, -, -⟩ := mkOperands_ok hmk
  refine ⟨by simpa using tn, tl a (by simp), tl b (by simp), ?_⟩
  intro i
  rw [tb]
  simp

theorem swap_spec {B n : Nat} {a b : Nat} {cs vs : List Nat} {o : Operands}
    (hmk : mkOperands [a, b] cs vs = .ok o) (hsize : B * 2 ^ n ≤ 2 ^ 64) {d : Device ℂ}
    (h : swapUpdate B n o = .ok d) (ψ : U64 → ℂ) :
    DRuns (B * 2 ^ n) d ψ (onState (B * 2 ^ n) (applyMat [a, b] swapMat (ctrlList cs vs)) ψ) := by
  obtain ⟨⟨⟩, hck, hd⟩ := bind_ok h
  obtain rfl : _ = d := Except.ok.inj hd
  have ctx := ctx_of hmk hck hsize
  obtain ⟨hne, ha, hb, hbits⟩ := two_bits hmk
  rcases Nat.lt_or_gt_of_ne hne with hlt | hlt
  · exact swapGate_spec ctx.masks hlt hb hbits _ ctx.ctrl swapMat (fun r s _ _ => rfl) ψ
  · rw [swap_symm ha hb hne (U := swapMat) (fun r s _ _ => rfl)]
    exact swapGate_spec ctx.masks hlt ha (fun i => by rw [hbits, Bool.or_comm]) _ ctx.ctrl swapMat
      (fun r s _ _ => rfl) ψ

/-- the swap kernel on amplitudes of any type -/
theorem swapGate_any_lt {R : Type} {B n q0 q1 : Nat} {t c v : U64} (h : MasksOK B n t c v) (hlt : q0 < q1) (h1 : q1 < 64)
    (ht : ∀ i, t.getLsbD i = (decide (i = q0) || decide (i = q1)))
    (cs : List (Nat × Bool)) (hcs : ∀ j : U64, j &&& c = v ↔ CtrlOK cs j) (m : U64 → R) :
    Runs (InState (B * 2 ^ n)) (swapGate t c v (B * 2 ^ n)) m
      (fun j => if j.toNat < B * 2 ^ n ∧ CtrlOK cs j then
        m (setBit (setBit j q0 (j.getLsbD q1)) q1 (j.getLsbD q0)) else m j) := by
  obtain ⟨hb0, hb1⟩ := lowest_bit hlt h1 ht
  have htor : t = (t &&& -t) ||| (t ^^^ (t &&& -t)) := by
    apply U64.ext; intro i hi
    rw [BitVec.getLsbD_or, hb0.2, hb1.2, ht]
  unfold swapGate
  refine twoTarget_runs htor h hb0 hb1 (by omega)
    (fun basis => swapCells (basis ||| (t &&& -t)) (basis ||| (t ^^^ (t &&& -t))))
    (fun x0 x1 a b c d => match x0, x1 with
      | false, false => a
      | true, false => c
      | false, true => b
      | true, true => d) m _ ?_ ?_ ?_ ?_ ?_ ?_
  · intro b hd; simp [swapCells, Prog.store_def, Prog.Within]
  · intro b hd
    simp [swapCells, Prog.store_def, Prog.exec, update_ne _ hd.d01, update_ne _ hd.d02]
  · intro b hd
    simp [swapCells, Prog.store_def, Prog.exec, update_ne _ hd.d12]
  · intro b hd
    simp [swapCells, Prog.store_def, Prog.exec]
  · intro b hd
    simp [swapCells, Prog.store_def, Prog.exec, update_ne _ hd.d13.symm, update_ne _ hd.d23.symm]
  · intro j
    by_cases hj : j.toNat < B * 2 ^ n ∧ CtrlOK cs j
    · rw [if_pos hj, if_pos (show InState (B * 2 ^ n) j ∧ j &&& c = v from ⟨hj.1, (hcs j).2 hj.2⟩)]
      simp only [or_bit_eq hb0, or_bit_eq hb1, and_not_bit_eq hb0, and_not_bit_eq hb1]
      cases j.getLsbD q0 <;> cases j.getLsbD q1 <;> rfl
    · rw [if_neg hj, if_neg (fun hh => hj ⟨hh.1, (hcs j).1 hh.2⟩)]

theorem swapGate_any {R : Type} {a b : Nat} {cs vs : List Nat} {o : Operands} {B n : Nat}
    (h : mkOperands [a, b] cs vs = .ok o) (hb : ∀ q, q ∈ [a, b] ∨ q ∈ cs → q < n) (hsize : B * 2 ^ n ≤ 2 ^ 64)
    (ψ : U64 → R) :
    Runs (InState (B * 2 ^ n)) (swapGate o.t o.c o.v (B * 2 ^ n)) ψ
      (fun j => if j.toNat < B * 2 ^ n ∧ CtrlOK (ctrlList cs vs) j then
        ψ (setBit (setBit j a (j.getLsbD b)) b (j.getLsbD a)) else ψ j) := by
  obtain ⟨hne, ha, hb', hbits⟩ := two_bits h
  have hm := masksOK_of h hb hsize
  have hc := ctrl_mask_iff h
  rcases Nat.lt_or_gt_of_ne hne with hlt | hlt
  · exact swapGate_any_lt hm hlt hb' hbits _ hc ψ
  · have := swapGate_any_lt hm hlt ha (fun i => by rw [hbits, Bool.or_comm]) _ hc ψ
    simp only [setBit_comm _ hb' ha (Ne.symm hne)] at this
    exact this

theorem mkEcr_ok {pc pt : Nat} {cs vs : List Nat} {g : EcrGate} (h : mkEcr pc pt cs vs = .ok g) :
    mkOperands [pt, pc] cs vs = .ok g.o ∧ IsBit g.pc pc ∧ IsBit g.pt pt := by
  obtain ⟨o, h1, h⟩ := bind_ok h
  obtain ⟨mc, h2, h⟩ := bind_ok h
  obtain ⟨mt, h3, h⟩ := bind_ok h
  obtain rfl : _ = g := Except.ok.inj h
  obtain ⟨-, h4, h5, -⟩ := two_bits h1
  refine ⟨h1, ⟨h5, ?_⟩, ⟨h4, ?_⟩⟩
  · intro i; rw [getLsbD_vectorToMask h2]; simp
  · intro i; rw [getLsbD_vectorToMask h3]; simp

theorem ecrMat_entries :
    (ecrMat 0 0 = 0 ∧ ecrMat 0 1 = (inverseSqrt2 : ℂ) ∧ ecrMat 0 2 = 0 ∧ ecrMat 0 3 = (⟨0, 1⟩ : ℂ) * (inverseSqrt2 : ℂ)) ∧
    (ecrMat 1 0 = (inverseSqrt2 : ℂ) ∧ ecrMat 1 1 = 0 ∧ ecrMat 1 2 = (⟨0, -1⟩ : ℂ) * (inverseSqrt2 : ℂ) ∧ ecrMat 1 3 = 0) ∧
    (ecrMat 2 0 = 0 ∧ ecrMat 2 1 = (⟨0, 1⟩ : ℂ) * (inverseSqrt2 : ℂ) ∧ ecrMat 2 2 = 0 ∧ ecrMat 2 3 = (inverseSqrt2 : ℂ)) ∧
    (ecrMat 3 0 = (⟨0, -1⟩ : ℂ) * (inverseSqrt2 : ℂ) ∧ ecrMat 3 1 = 0 ∧ ecrMat 3 2 = (inverseSqrt2 : ℂ) ∧ ecrMat 3 3 = 0) := by
  have hI : (⟨0, 1⟩ : ℂ) = Complex.I := rfl
  have hmI : (⟨0, -1⟩ : ℂ) = -Complex.I := by apply Complex.ext <;> simp
  rw [hI, hmI]
  unfold ecrMat
  rw [inv_sqrt2, show (Real.sqrt 2 / 2 : ℝ) = inverseSqrt2 from rfl]
  generalize (inverseSqrt2 : ℂ) = s
  simp [pauliX, pauliY, mat2]
  ring

theorem ecr_spec {B n : Nat} {pc pt : Nat} {cs vs : List Nat} {g : EcrGate}
    (hmk : mkEcr pc pt cs vs = .ok g) (hsize : B * 2 ^ n ≤ 2 ^ 64) {d : Device ℂ}
    (h : ecrUpdate B n g = .ok d) (ψ : U64 → ℂ) :
    DRuns (B * 2 ^ n) d ψ (onState (B * 2 ^ n) (applyMat [pc, pt] ecrMat (ctrlList cs vs)) ψ) := by
  obtain ⟨⟨⟩, hck, hd⟩ := bind_ok h
  obtain rfl : _ = d := Except.ok.inj hd
  obtain ⟨hmk', hbc, hbt⟩ := mkEcr_ok hmk
  have ctx := ctx_of hmk' hck hsize
  obtain ⟨hne, ha, hb, hbits⟩ := two_bits hmk'
  have ht : g.o.t = g.pt ||| g.pc := by
    apply U64.ext; intro i _
    rw [hbits, BitVec.getLsbD_or, hbc.2, hbt.2]
  have hm := ctx.masks
  rw [ht] at hm
  obtain ⟨e0, e1, e2, e3⟩ := ecrMat_entries
  exact ecrGate_spec hm hbc hbt (Ne.symm hne) _ ctx.ctrl _ _ _ ecrMat e0 e1 e2 e3 ψ

end Verif.Proofs
