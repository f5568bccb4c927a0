import Verif.Proofs.DensityCtrl
import Verif.Proofs.Gate2
import Verif.Proofs.GateUpdate

/-! # Each density-matrix kernel conjugates by its operator -/

namespace Verif.Proofs
open Verif Verif.Spec Verif.Model
open scoped ComplexConjugate
attribute [-simp] BitVec.getLsbD_eq_getElem

section
variable {n q : Nat} {t c v : U64} {cs : List (Nat × Bool)}

theorem or_zero' (x : U64) : x ||| 0 = x := BitVec.or_zero

theorem two_pass1 {tm : U64} (hn : n < 32) {ts : List Nat} (h64 : ∀ q ∈ ts, q < 64) (hts : ∀ q ∈ ts, q < n)
    {U : Nat → Nat → ℂ} {bodyL bodyR : U64 → Prog U64 ℂ Unit} {L R : U64 → U64 → Prog (U64 × U64) ℂ Unit}
    (h1 : ∀ m, Runs (InState (1 * 2 ^ n)) (parallelFor (workItems (1 * 2 ^ n) tm) bodyL) m (onState (1 * 2 ^ n) (applyMat ts U cs) m))
    (h2 : ∀ m, Runs (InState (1 * 2 ^ n)) (parallelFor (workItems (1 * 2 ^ n) tm) bodyR) m
      (onState (1 * 2 ^ n) (applyMat ts (fun r s => conj (U r s)) cs) m))
    (hL : ∀ it col, L it col = (bodyL it).mapAddr (fun r => (r, col)))
    (hR : ∀ row it, R row it = (bodyR it).mapAddr (fun c => (row, c)))
    (M : U64 × U64 → ℂ) :
    MRuns (2 ^ n) [pairFor (workItems (2 ^ n) tm) (2 ^ n) L, pairFor (2 ^ n) (workItems (2 ^ n) tm) R] M
      (onMatrix (2 ^ n) (applyMat ts U cs) M) := by
  refine two_pass hn (workItems_le _ _) h64 hts hL hR (fun m => ?_) (fun m => ?_) M
  · have := h1 m; rwa [one_mul_pow] at this
  · have := h2 m; rwa [one_mul_pow] at this

theorem dmDense1_spec (h : MasksOK 1 n t c v) (hn : n < 32) (hq : IsBit t q) (hcs : ∀ j : U64, j &&& c = v ↔ CtrlOK cs j)
    (M : M22 ℂ) (U : Nat → Nat → ℂ) (hU : U 0 0 = M.m00 ∧ U 0 1 = M.m01 ∧ U 1 0 = M.m10 ∧ U 1 1 = M.m11) (ρ : U64 × U64 → ℂ) :
    MRuns (2 ^ n) (dmDense1 t c v M (2 ^ n)) ρ (onMatrix (2 ^ n) (applyMat [q] U cs) ρ) := by
  unfold dmDense1
  split
  · next hc =>
    subst hc
    obtain rfl := v_zero h
    simp only [or_zero']
    exact block2_spec h hn hq (dense2_block M U hU) hcs ρ
  · have hb := bit_lt h hq
    have e1 : ∀ m, Runs (InState (1 * 2 ^ n)) (dense1Scalar t c v M (1 * 2 ^ n)) m _ :=
      fun m => dense1Scalar_spec h hq cs hcs M U hU m
    have e2 : ∀ m, Runs (InState (1 * 2 ^ n)) (dense1Scalar t c v ⟨conj M.m00, conj M.m01, conj M.m10, conj M.m11⟩ (1 * 2 ^ n)) m _ :=
      fun m => dense1Scalar_spec h hq cs hcs _ (fun r s => conj (U r s)) (by simp [hU]) m
    exact two_pass1 hn (ts := [q]) (by simp; exact hq.1) (by simp; exact hb) e1 e2 (fun _ _ => rfl) (fun _ _ => rfl) ρ

theorem dmDiag_spec (h : MasksOK 1 n t c v) (hn : n < 32) (hq : IsBit t q) (hcs : ∀ j : U64, j &&& c = v ↔ CtrlOK cs j)
    (d0 d1 : ℂ) (U : Nat → Nat → ℂ) (hU : U 0 0 = d0 ∧ U 0 1 = 0 ∧ U 1 0 = 0 ∧ U 1 1 = d1) (ρ : U64 × U64 → ℂ) :
    MRuns (2 ^ n) (dmDiag t c v d0 d1 (2 ^ n)) ρ (onMatrix (2 ^ n) (applyMat [q] U cs) ρ) := by
  unfold dmDiag
  split
  · next hc =>
    subst hc
    obtain rfl := v_zero h
    simp only [or_zero']
    exact block2_spec h hn hq (diag2_block d0 d1 U hU) hcs ρ
  · split
    · next hp => exact block4_spec h hn hq hp (diag4_block d0 d1 U hU) hcs ρ
    · have hb := bit_lt h hq
      have e1 : ∀ m, Runs (InState (1 * 2 ^ n)) (diagGate t c v d0 d1 (1 * 2 ^ n)) m _ :=
        fun m => diagGate_spec h hq cs hcs d0 d1 U hU m
      have e2 : ∀ m, Runs (InState (1 * 2 ^ n)) (diagGate t c v (conj d0) (conj d1) (1 * 2 ^ n)) m _ :=
        fun m => diagGate_spec h hq cs hcs _ _ (fun r s => conj (U r s)) (by simp [hU]) m
      rw [BitVec.or_comm c t]
      exact two_pass1 hn (ts := [q]) (by simp; exact hq.1) (by simp; exact hb) e1 e2 (fun _ _ => rfl) (fun _ _ => rfl) ρ

theorem dmPhase_spec (h : MasksOK 1 n t c v) (hn : n < 32) (hq : IsBit t q) (hcs : ∀ j : U64, j &&& c = v ↔ CtrlOK cs j)
    (p : ℂ) (hp1 : p * conj p = 1) (U : Nat → Nat → ℂ) (hU : U 0 0 = 1 ∧ U 0 1 = 0 ∧ U 1 0 = 0 ∧ U 1 1 = p) (ρ : U64 × U64 → ℂ) :
    MRuns (2 ^ n) (dmPhase t c v p (2 ^ n)) ρ (onMatrix (2 ^ n) (applyMat [q] U cs) ρ) := by
  unfold dmPhase
  dsimp only
  split
  · next hc =>
    subst hc
    obtain rfl := v_zero h
    simp only [or_zero']
    exact block2_spec h hn hq (phase2_block p hp1 U hU) hcs ρ
  · split
    · next hp => exact block4_spec h hn hq hp (phase4_block p hp1 U hU) hcs ρ
    · have hb := bit_lt h hq
      have e1 : ∀ m, Runs (InState (1 * 2 ^ n)) (phaseGate t c v p (1 * 2 ^ n)) m _ :=
        fun m => phaseGate_spec h hq cs hcs p U hU m
      have e2 : ∀ m, Runs (InState (1 * 2 ^ n)) (phaseGate t c v (conj p) (1 * 2 ^ n)) m _ :=
        fun m => phaseGate_spec h hq cs hcs _ (fun r s => conj (U r s)) (by simp [hU]) m
      exact two_pass1 hn (ts := [q]) (by simp; exact hq.1) (by simp; exact hb) e1 e2 (fun _ _ => rfl) (fun _ _ => rfl) ρ

theorem dmX_spec (h : MasksOK 1 n t c v) (hn : n < 32) (hq : IsBit t q) (hcs : ∀ j : U64, j &&& c = v ↔ CtrlOK cs j)
    (U : Nat → Nat → ℂ) (hU : U 0 0 = 0 ∧ U 0 1 = 1 ∧ U 1 0 = 1 ∧ U 1 1 = 0) (ρ : U64 × U64 → ℂ) :
    MRuns (2 ^ n) (dmX t c v (2 ^ n)) ρ (onMatrix (2 ^ n) (applyMat [q] U cs) ρ) := by
  unfold dmX
  dsimp only
  split
  · next hc =>
    subst hc
    obtain rfl := v_zero h
    simp only [or_zero']
    exact block2_spec h hn hq (x2_block U hU) hcs ρ
  · split
    · next hp => exact block4_spec h hn hq hp (x4_block U hU) hcs ρ
    · have hb := bit_lt h hq
      have e1 : ∀ m, Runs (InState (1 * 2 ^ n)) (xGate t c v (1 * 2 ^ n)) m _ :=
        fun m => xGate_spec h hq cs hcs U hU m
      have e2 : ∀ m, Runs (InState (1 * 2 ^ n)) (xGate t c v (1 * 2 ^ n)) m _ :=
        fun m => xGate_spec h hq cs hcs (fun r s => conj (U r s)) (by simp [hU]) m
      exact two_pass1 hn (ts := [q]) (by simp; exact hq.1) (by simp; exact hb) e1 e2 (fun _ _ => rfl) (fun _ _ => rfl) ρ

/-- one pass of the controlled Y kernel -/
theorem yPass_spec (h : MasksOK 1 n t c v) (hq : IsBit t q) (hcs : ∀ j : U64, j &&& c = v ↔ CtrlOK cs j) (a b : ℂ)
    (U : Nat → Nat → ℂ) (hU : U 0 0 = 0 ∧ U 0 1 = a ∧ U 1 0 = b ∧ U 1 1 = 0) (m : U64 → ℂ) :
    Runs (InState (1 * 2 ^ n)) (parallelFor (workItems (1 * 2 ^ n) (t ||| c)) (fun it => do
        let row0 := insertZero it (c ||| t) ||| v
        let row1 := row0 ||| t
        let val0 ← Prog.load row0
        let val1 ← Prog.load row1
        Prog.store row0 (a * val1)
        Prog.store row1 (b * val0))) m (onState (1 * 2 ^ n) (applyMat [q] U cs) m) := by
  obtain ⟨u1, u2, u3, u4⟩ := hU
  simp only [BitVec.or_comm c t]
  refine oneTarget_spec h hq cs hcs (fun basis0 => do
    let val0 ← Prog.load basis0
    let val1 ← Prog.load (basis0 ||| t)
    Prog.store basis0 (a * val1)
    Prog.store (basis0 ||| t) (b * val0)) U m ?_ ?_ ?_
  · intro b hne
    simp [Prog.store_def, Prog.Within]
  · intro b hne
    simp [Prog.store_def, Prog.exec, update_ne _ hne, u1, u2]
  · intro b hne
    simp [Prog.store_def, Prog.exec, u3, u4]

theorem dmY_spec (h : MasksOK 1 n t c v) (hn : n < 32) (hq : IsBit t q) (hcs : ∀ j : U64, j &&& c = v ↔ CtrlOK cs j)
    (U : Nat → Nat → ℂ) (hU : U 0 0 = 0 ∧ U 0 1 = ⟨0, -1⟩ ∧ U 1 0 = ⟨0, 1⟩ ∧ U 1 1 = 0) (ρ : U64 × U64 → ℂ) :
    MRuns (2 ^ n) (dmY t c v (2 ^ n)) ρ (onMatrix (2 ^ n) (applyMat [q] U cs) ρ) := by
  unfold dmY
  dsimp only
  split
  · next hc =>
    subst hc
    obtain rfl := v_zero h
    simp only [or_zero']
    exact block2_spec h hn hq (y2_block U hU) hcs ρ
  · have hb := bit_lt h hq
    have e1 := fun m => yPass_spec h hq hcs _ _ U hU m
    have e2 := fun m => yPass_spec h hq hcs ⟨0, 1⟩ ⟨0, -1⟩ (fun r s => conj (U r s)) (by
      simp only [hU]
      refine ⟨?_, ?_, ?_, ?_⟩ <;> apply Complex.ext <;> simp) m
    exact two_pass1 hn (ts := [q]) (by simp; exact hq.1) (by simp; exact hb) e1 e2 (fun _ _ => rfl) (fun _ _ => rfl) ρ

theorem dmSwap_spec {q0 q1 : Nat} (h : MasksOK 1 n t c v) (hn : n < 32) (hlt : q0 < q1) (h1 : q1 < n)
    (ht : ∀ i, t.getLsbD i = (decide (i = q0) || decide (i = q1))) (hcs : ∀ j : U64, j &&& c = v ↔ CtrlOK cs j)
    (U : Nat → Nat → ℂ) (hU : ∀ r s, r < 4 → s < 4 → U r s = if r % 2 = s / 2 ∧ r / 2 = s % 2 then 1 else 0) (ρ : U64 × U64 → ℂ) :
    MRuns (2 ^ n) (dmSwap t c v (2 ^ n)) ρ (onMatrix (2 ^ n) (applyMat [q0, q1] U cs) ρ) := by
  unfold dmSwap
  dsimp only
  have e1 : ∀ m, Runs (InState (1 * 2 ^ n)) (swapGate t c v (1 * 2 ^ n)) m _ :=
    fun m => swapGate_spec h hlt (by omega) ht cs hcs U hU m
  have e2 : ∀ m, Runs (InState (1 * 2 ^ n)) (swapGate t c v (1 * 2 ^ n)) m _ :=
    fun m => swapGate_spec h hlt (by omega) ht cs hcs (fun r s => conj (U r s)) (by
      intro r s hr hs; rw [hU r s hr hs]; split <;> simp) m
  unfold swapGate at e1 e2
  dsimp only at e1 e2
  exact two_pass1 hn (ts := [q0, q1]) (by intro q; simp; omega) (by intro q; simp; omega) e1 e2 (fun _ _ => rfl) (fun _ _ => rfl) ρ

theorem dmGlobalPhase_spec (h : MasksOK 1 n 0 c v) (hn : n < 32) (hcs : ∀ j : U64, j &&& c = v ↔ CtrlOK cs j)
    (angle : ℝ) (U : Nat → Nat → ℂ) (hU : U 0 0 = cis angle) (ρ : U64 × U64 → ℂ) :
    MRuns (2 ^ n) (dmGlobalPhase c v angle (2 ^ n)) ρ (onMatrix (2 ^ n) (applyMat [] U cs) ρ) := by
  unfold dmGlobalPhase
  split
  · next hc =>
    subst hc
    obtain rfl := v_zero h
    rw [ctrl_nil hcs]
    have hz : cis angle * conj (cis angle) = 1 := by
      rw [cis_eq]
      apply Complex.ext
      · simp; rw [← sq, ← sq, Real.cos_sq_add_sin_sq]
      · simp; ring
    show _ = ρ
    funext p
    obtain ⟨r, c⟩ := p
    unfold onMatrix
    split
    · have hok : ∀ j : U64, CtrlOK [] j := by intro j p hp; cases hp
      have e : ∀ φ j, applyMat [] U [] φ j = cis angle * φ j := by
        intro φ j; rw [Verif.Spec.applyMat_nil, if_pos (hok j), hU]
      simp only [e, map_mul, Complex.conj_conj]
      linear_combination (ρ (r, c)) * hz
    · rfl
  · dsimp only
    rw [polar_eq]
    have e1 : ∀ m, Runs (InState (1 * 2 ^ n)) (zeroTargetScalar c v (cis angle) (1 * 2 ^ n)) m _ :=
      fun m => zeroTargetScalar_spec h cs hcs _ U hU m
    have e2 : ∀ m, Runs (InState (1 * 2 ^ n)) (zeroTargetScalar c v (conj (cis angle)) (1 * 2 ^ n)) m _ :=
      fun m => zeroTargetScalar_spec h cs hcs _ (fun r s => conj (U r s)) (by simp [hU]) m
    exact two_pass1 hn (ts := []) (by simp) (by simp) e1 e2 (fun _ _ => rfl) (fun _ _ => rfl) ρ

end
end Verif.Proofs
