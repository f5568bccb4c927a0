import Verif.Model.RandomGate
import Verif.Spec.Random
import Verif.Proofs.StateOps
import Verif.Proofs.GateUpdate
import Verif.Proofs.GateBounds
import Verif.Proofs.GateDescFacts

/-! # Measurement -/

namespace Verif.Proofs
open Verif Verif.Spec Verif.Model
attribute [-simp] BitVec.getLsbD_eq_getElem

theorem SeqRun.unique {ι C : Type} {step : ι → C → C → Option Fault → Prop}
    (hs : ∀ i c c1 f1 c2 f2, step i c c1 f1 → step i c c2 f2 → c1 = c2 ∧ f1 = f2) {is : List ι} {c c1 c2 : C}
    {f1 f2 : Option Fault} (h1 : SeqRun step is c c1 f1) (h2 : SeqRun step is c c2 f2) : c1 = c2 ∧ f1 = f2 := by
  induction h1 generalizing c2 f2 with
  | nil c => cases h2; exact ⟨rfl, rfl⟩
  | cons i is c d d' f hst _ ih =>
    cases h2 with
    | cons _ _ _ e _ _ hst' hr' =>
      obtain ⟨rfl, -⟩ := hs _ _ _ _ _ _ hst hst'
      exact ih hr'
    | stop _ _ _ _ e hst' =>
      obtain ⟨-, hf⟩ := hs _ _ _ _ _ _ hst hst'
      cases hf
  | stop i is c d e hst =>
    cases h2 with
    | cons _ _ _ _ _ _ hst' hr' =>
      obtain ⟨-, hf⟩ := hs _ _ _ _ _ _ hst hst'
      cases hf
    | stop _ _ _ _ e' hst' => exact hs _ _ _ _ _ _ hst hst'

theorem Context.ext {a b : Context} (h1 : a.psi = b.psi) (h2 : a.reg = b.reg) (h3 : a.pos = b.pos) : a = b := by
  cases a; cases b; simp_all

theorem UGate.runsOn_unique {L n : Nat} {g : UGate} {c c1 c2 : Context} {f1 f2 : Option Fault}
    (h1 : g.RunsOn L n c c1 f1) (h2 : g.RunsOn L n c c2 f2) : c1 = c2 ∧ f1 = f2 := by
  unfold UGate.RunsOn at h1 h2
  cases hu : g.update L 1 n with
  | error e => rw [hu] at h1 h2; exact ⟨h1.1.trans h2.1.symm, h1.2.trans h2.2.symm⟩
  | ok dev =>
    rw [hu] at h1 h2
    exact ⟨Context.ext (h1.2.2.2.unique h2.2.2.2) (h1.2.1.trans h2.2.1.symm) (h1.2.2.1.trans h2.2.2.1.symm),
      h1.1.trans h2.1.symm⟩

theorem MeasureRuns.unique {L n : Nat} {g : MeasGate} {u : ℝ} {ψ a b : U64 → ℂ} {r s : Res Bool}
    (h1 : MeasureRuns L n g u ψ a r) (h2 : MeasureRuns L n g u ψ b s) : a = b ∧ r = s := by
  unfold MeasureRuns at h1 h2
  cases hz : zeroProbability n (ctz g.o.t) ψ with
  | error e => rw [hz] at h1 h2; exact ⟨h1.1.trans h2.1.symm, h1.2.trans h2.2.symm⟩
  | ok p =>
    rw [hz] at h1 h2
    dsimp only at h1 h2
    by_cases hp : 0 ≤ p ∧ p ≤ 1
    · rw [if_pos hp] at h1 h2
      obtain ⟨ψ1, r1, h1⟩ := h1
      obtain ⟨ψ1', r1', h2⟩ := h2
      obtain rfl := r1.unique r1'
      cases hd : normalizeDev n ψ1 with
      | error e => rw [hd] at h1 h2; exact ⟨h1.1.trans h2.1.symm, h1.2.trans h2.2.symm⟩
      | ok dev =>
        rw [hd] at h1 h2
        obtain ⟨ψ2, r2, e1, h1⟩ := h1
        obtain ⟨ψ2', r2', e2, h2⟩ := h2
        obtain rfl := r2.unique r2'
        refine ⟨?_, e1.trans e2.symm⟩
        by_cases hc : g.reset = true ∧ ¬ u < p
        · rw [if_pos hc] at h1 h2
          exact h1.unique h2
        · rw [if_neg hc] at h1 h2
          exact h1.trans h2.symm
    · rw [if_neg hp] at h1 h2; exact ⟨h1.1.trans h2.1.symm, h1.2.trans h2.2.symm⟩

theorem MeasGate.measureAndStore_unique {L n : Nat} {rnd : Nat → ℝ} {g : MeasGate} {c c1 c2 : Context} {f1 f2 : Option Fault}
    (h1 : g.MeasureAndStore L n rnd c c1 f1) (h2 : g.MeasureAndStore L n rnd c c2 f2) : c1 = c2 ∧ f1 = f2 := by
  obtain ⟨r, m1, p1, h1⟩ := h1
  obtain ⟨s, m2, p2, h2⟩ := h2
  obtain ⟨e, rfl⟩ := Proofs.MeasureRuns.unique m1 m2
  cases r with
  | error x => exact ⟨Context.ext e (h1.1.trans h2.1.symm) (p1.trans p2.symm), h1.2.trans h2.2.symm⟩
  | ok z =>
    dsimp only at h1 h2
    cases hr : setRegister c.reg g.cbit (!z) with
    | error x => rw [hr] at h1 h2; exact ⟨Context.ext e (h1.1.trans h2.1.symm) (p1.trans p2.symm), h1.2.trans h2.2.symm⟩
    | ok x => rw [hr] at h1 h2; exact ⟨Context.ext e (h1.1.trans h2.1.symm) (p1.trans p2.symm), h1.2.trans h2.2.symm⟩

theorem MeasGate.runsOn_unique {L n : Nat} {rnd : Nat → ℝ} {g : MeasGate} {c c1 c2 : Context} {f1 f2 : Option Fault}
    (h1 : g.RunsOn L n rnd c c1 f1) (h2 : g.RunsOn L n rnd c c2 f2) : c1 = c2 ∧ f1 = f2 := by
  unfold MeasGate.RunsOn at h1 h2
  cases hc : g.check n c.reg.length with
  | error e => rw [hc] at h1 h2; exact ⟨h1.1.trans h2.1.symm, h1.2.trans h2.2.symm⟩
  | ok _ => rw [hc] at h1 h2; exact MeasGate.measureAndStore_unique h1 h2

theorem Gate.runsOn_unique {L n : Nat} {rnd : Nat → ℝ} {g : Gate} {c c1 c2 : Context} {f1 f2 : Option Fault}
    (h1 : g.RunsOn L n rnd c c1 f1) (h2 : g.RunsOn L n rnd c c2 f2) : c1 = c2 ∧ f1 = f2 := by
  cases g with
  | det g => exact UGate.runsOn_unique (g := g) h1 h2
  | meas g => exact MeasGate.runsOn_unique (g := g) h1 h2
  | prob t =>
    unfold Gate.RunsOn at h1 h2
    dsimp only at h1 h2
    cases hs : t.select (rnd c.pos) with
    | error e => rw [hs] at h1 h2; exact ⟨h1.1.trans h2.1.symm, h1.2.trans h2.2.symm⟩
    | ok u => rw [hs] at h1 h2; exact UGate.runsOn_unique h1 h2

/-! ## the collapse -/

theorem ctz_isBit {t : U64} {q : Nat} (h : IsBit t q) : ctz t = q := by
  unfold ctz
  rw [List.findIdx_eq (by simpa using h.1)]
  refine ⟨?_, fun i hi => ?_⟩
  · rw [List.getElem_range, h.2]; simp
  · rw [List.getElem_range, h.2]; simp; omega

theorem setBit_lt {n q : Nat} (h64 : q < 64) (hq : q < n) {j : U64} (hj : j.toNat < 2 ^ n) (b : Bool) :
    (setBit j q b).toNat < 2 ^ n := by
  have := (putBits_inState (B := 1) (ts := [q]) (by simpa using h64) (by simpa using hq) j b.toNat).2 (by omega)
  have e : putBits j [q] b.toNat = setBit j q b := by cases b <;> rfl
  rw [e] at this
  omega

/-- a projector keeps the amplitudes with the right bit -/
theorem applyMat_proj (q : Nat) (b : Bool) (ψ : U64 → ℂ) (j : U64) (hq : q < 64) :
    applyMat [q] (gate1Mat (if b then .P1 else .P0)) [] ψ j = if j.getLsbD q = b then ψ j else 0 := by
  rw [applyMat_one, if_pos (by intro p hp; cases hp)]
  have hs : setBit j q (j.getLsbD q) = j := setBit_self j hq
  cases b <;> cases hj : j.getLsbD q <;> rw [hj] at hs <;> simp [gate1Mat, mat2, hs]

theorem applyMat_x (q : Nat) (ψ : U64 → ℂ) (j : U64) :
    applyMat [q] (gate1Mat .X) [] ψ j = ψ (setBit j q (!j.getLsbD q)) := by
  rw [applyMat_one, if_pos (by intro p hp; cases hp)]
  cases hj : j.getLsbD q <;> simp [gate1Mat, pauliX, mat2]

theorem normSq_proj {n q : Nat} (b : Bool) (ψ : U64 → ℂ) {φ : U64 → ℂ}
    (h : ∀ j : U64, j ∈ indices (2 ^ n) → φ j = if j.getLsbD q = b then ψ j else 0) : normSq (2 ^ n) φ = bitProb n ψ q b := by
  unfold normSq bitProb
  refine Finset.sum_congr rfl fun j hj => ?_
  rw [h j hj]
  split <;> simp

/-- one measurement, for an outcome that has a nonzero probability -/
theorem measure_spec {L n q : Nat} (hL : LanesOK L) (hn : n ≤ 63) (hq : q < n) {g : MeasGate} (hb : IsBit g.o.t q)
    (u : ℝ) (ψ : U64 → ℂ) (h1 : bitProb n ψ q false ≤ 1) (b : Bool) (hu : b = !decide (u < bitProb n ψ q false))
    (h0 : bitProb n ψ q b ≠ 0) :
    MeasureRuns L n g u ψ (onState (2 ^ n) (afterMeasurement n q b g.reset) ψ) (.ok (!b)) := by
  have hq64 : q < 64 := hb.1
  have hm : MasksOK 1 n g.o.t 0 0 := by
    refine ⟨by rw [Nat.one_mul]; exact pow64 hn, ?_, by simp, by simp⟩
    rw [show g.o.t ||| 0 = g.o.t by simp, hb.eq, BitVec.toNat_ofNat]
    exact lt_of_le_of_lt (Nat.mod_le _ _) (Nat.pow_lt_pow_right (by omega) hq)
  have hcs : ∀ j : U64, j &&& (0 : U64) = 0 ↔ CtrlOK [] j := by
    intro j; simp [CtrlOK]
  have hk : (if u < bitProb n ψ q false then Gate1.P0 else Gate1.P1) = if b then Gate1.P1 else Gate1.P0 := by
    rw [hu]; by_cases h : u < bitProb n ψ q false <;> simp [h]
  unfold MeasureRuns
  rw [ctz_isBit hb, zeroProbability_eq hn hq]
  change (if 0 ≤ bitProb n ψ q false ∧ bitProb n ψ q false ≤ 1 then _ else _)
  rw [if_pos ⟨bitProb_nonneg .., h1⟩]
  change ∃ ψ1, DRuns _ (gate1Kernel L n _ _ (if u < bitProb n ψ q false then Gate1.P0 else Gate1.P1)) ψ ψ1 ∧ _
  rw [hk]
  have hrun := gate1Kernel_spec hL (o := ⟨g.o.t, 0, 0⟩) hm hb [] hcs (if b then .P1 else .P0) ψ
  refine ⟨_, hrun, ?_⟩
  have hval : ∀ j : U64, j.toNat < 2 ^ n →
      onState (1 * 2 ^ n) (applyMat [q] (gate1Mat (if b then .P1 else .P0)) []) ψ j = if j.getLsbD q = b then ψ j else 0 := by
    intro j hj
    unfold onState
    rw [if_pos (by omega), applyMat_proj q b ψ j hq64]
  have hnorm : normSq (2 ^ n) (onState (1 * 2 ^ n) (applyMat [q] (gate1Mat (if b then .P1 else .P0)) []) ψ) = bitProb n ψ q b :=
    normSq_proj b ψ fun j hj => hval j ((mem_indices (pow64 hn)).1 hj)
  obtain ⟨dev, hdev, hr2⟩ := normalizes hn (ψ := onState (1 * 2 ^ n) (applyMat [q] (gate1Mat (if b then .P1 else .P0)) []) ψ)
    (by rw [hnorm]; exact h0)
  rw [hdev]
  refine ⟨_, hr2, ?_, ?_⟩
  · rw [hu]
    rw [Bool.not_not]
  · have hcond : (g.reset = true ∧ ¬ u < bitProb n ψ q false) ↔ (g.reset = true ∧ b = true) := by
      rw [hu]; by_cases h : u < bitProb n ψ q false <;> simp [h]
    have hval2 : ∀ j : U64, j.toNat < 2 ^ n →
        (fun j => if InState (2 ^ n) j then onState (1 * 2 ^ n) (applyMat [q] (gate1Mat (if b then .P1 else .P0)) []) ψ j /
          (Real.sqrt (normSq (2 ^ n) (onState (1 * 2 ^ n) (applyMat [q] (gate1Mat (if b then .P1 else .P0)) []) ψ)) : ℂ)
          else onState (1 * 2 ^ n) (applyMat [q] (gate1Mat (if b then .P1 else .P0)) []) ψ j) j =
          if j.getLsbD q = b then ψ j / (Real.sqrt (bitProb n ψ q b) : ℂ) else 0 := by
      intro j hj
      dsimp only
      rw [if_pos (show InState _ _ from hj), hval j hj, hnorm]
      split
      · rfl
      · rw [zero_div]
    have hout : ∀ j : U64, ¬ j.toNat < 2 ^ n →
        (fun j => if InState (2 ^ n) j then onState (1 * 2 ^ n) (applyMat [q] (gate1Mat (if b then .P1 else .P0)) []) ψ j /
          (Real.sqrt (normSq (2 ^ n) (onState (1 * 2 ^ n) (applyMat [q] (gate1Mat (if b then .P1 else .P0)) []) ψ)) : ℂ)
          else onState (1 * 2 ^ n) (applyMat [q] (gate1Mat (if b then .P1 else .P0)) []) ψ j) j = ψ j := by
      intro j hj
      dsimp only
      rw [if_neg (show ¬ InState _ _ from hj)]
      unfold onState
      rw [if_neg (by omega)]
    generalize (fun j => if InState (2 ^ n) j then
      onState (1 * 2 ^ n) (applyMat [q] (gate1Mat (if b then .P1 else .P0)) []) ψ j /
          (Real.sqrt (normSq (2 ^ n) (onState (1 * 2 ^ n) (applyMat [q] (gate1Mat (if b then .P1 else .P0)) []) ψ)) : ℂ)
          else onState (1 * 2 ^ n) (applyMat [q] (gate1Mat (if b then .P1 else .P0)) []) ψ j) = φ at hval2 hout ⊢
    by_cases hc : g.reset = true ∧ b = true
    · have hc' := hcond.2 hc
      change (if g.reset = true ∧ ¬ u < bitProb n ψ q false then _ else _)
      rw [if_pos hc']
      have := gate1Kernel_spec hL (o := ⟨g.o.t, 0, 0⟩) hm hb [] hcs .X φ
      convert this using 1
      funext j
      unfold onState
      rw [Nat.one_mul]
      by_cases hj : j.toNat < 2 ^ n
      · rw [if_pos hj, if_pos hj, applyMat_x]
        unfold afterMeasurement
        rw [hc.1, hc.2, if_pos rfl]
        have hin : (setBit j q (!j.getLsbD q)).toNat < 2 ^ n := by
          exact setBit_lt hq64 hq hj _
        rw [hval2 _ hin, getLsbD_setBit _ hq64, if_pos rfl, hc.2]
        cases j.getLsbD q <;> simp
      · rw [if_neg hj, if_neg hj, hout j hj]
    · change (if g.reset = true ∧ ¬ u < bitProb n ψ q false then _ else _)
      rw [if_neg (fun h => hc (hcond.1 h))]
      funext j
      unfold onState
      by_cases hj : j.toNat < 2 ^ n
      · rw [if_pos hj, hval2 j hj]
        unfold afterMeasurement
        cases hr : g.reset
        · rfl
        · have hbf : b = false := by
            cases hb' : b
            · rfl
            · exact absurd ⟨hr, hb'⟩ hc
          subst hbf
          rw [if_pos rfl]
          by_cases hj2 : j.getLsbD q = false
          · rw [if_pos hj2, if_pos hj2, ← hj2, setBit_self _ hq64]
          · rw [if_neg hj2, if_neg hj2]
      · rw [if_neg hj, hout j hj]

end Verif.Proofs
