import Verif.Proofs.Simd

/-! # Each kernel computes the operator of its matrix -/

namespace Verif.Model
open Verif Verif.Spec
attribute [-simp] BitVec.getLsbD_eq_getElem

section
variable {R : Type} {B n q : Nat} {t c v : U64}

theorem update_same {A : Type} [DecidableEq A] (m : A → R) (a : A) (x : R) : Function.update m a x a = x :=
  Function.update_self a x m
theorem update_ne {A : Type} [DecidableEq A] (m : A → R) {a b : A} (h : b ≠ a) (x : R) :
    Function.update m a x b = m b := Function.update_of_ne h x m

theorem phaseGate_spec [CommSemiring R] (h : MasksOK B n t c v) (hq : IsBit t q)
    (cs : List (Nat × Bool)) (hcs : ∀ j : U64, j &&& c = v ↔ CtrlOK cs j) (phase : R) (U : Nat → Nat → R)
    (hU : U 0 0 = 1 ∧ U 0 1 = 0 ∧ U 1 0 = 0 ∧ U 1 1 = phase) (m : U64 → R) :
    Runs (InState (B * 2 ^ n)) (phaseGate t c v phase (B * 2 ^ n)) m
      (onState (B * 2 ^ n) (applyMat [q] U cs) m) := by
  obtain ⟨u1, u2, u3, u4⟩ := hU
  unfold phaseGate
  simp only [BitVec.or_comm c t]
  refine oneTarget_spec h hq cs hcs (fun b => mulCell (b ||| t) phase) U m ?_ ?_ ?_
  · intro b hne; exact ⟨.inr rfl, fun _ => ⟨.inr rfl, trivial⟩⟩
  · intro b hne
    simp [mulCell, Prog.store_def, Prog.exec, update_ne _ hne, u1, u2]
  · intro b hne
    simp [mulCell, Prog.store_def, Prog.exec, u3, u4, mul_comm]

theorem xGate_spec [CommSemiring R] (h : MasksOK B n t c v) (hq : IsBit t q)
    (cs : List (Nat × Bool)) (hcs : ∀ j : U64, j &&& c = v ↔ CtrlOK cs j) (U : Nat → Nat → R)
    (hU : U 0 0 = 0 ∧ U 0 1 = 1 ∧ U 1 0 = 1 ∧ U 1 1 = 0) (m : U64 → R) :
    Runs (InState (B * 2 ^ n)) (xGate t c v (B * 2 ^ n)) m
      (onState (B * 2 ^ n) (applyMat [q] U cs) m) := by
  obtain ⟨u1, u2, u3, u4⟩ := hU
  unfold xGate
  simp only [BitVec.or_comm c t]
  refine oneTarget_spec h hq cs hcs (fun b => swapCells b (b ||| t)) U m ?_ ?_ ?_
  · intro b hne; exact ⟨.inl rfl, fun _ => ⟨.inr rfl, fun _ => ⟨.inl rfl, .inr rfl, trivial⟩⟩⟩
  · intro b hne
    simp [swapCells, Prog.store_def, Prog.exec, update_ne _ hne, u1, u2]
  · intro b hne
    simp [swapCells, Prog.store_def, Prog.exec, u3, u4]

theorem yGate_spec [CommSemiring R] (h : MasksOK B n t c v) (hq : IsBit t q)
    (cs : List (Nat × Bool)) (hcs : ∀ j : U64, j &&& c = v ↔ CtrlOK cs j) (im mim : R) (U : Nat → Nat → R)
    (hU : U 0 0 = 0 ∧ U 0 1 = mim ∧ U 1 0 = im ∧ U 1 1 = 0) (m : U64 → R) :
    Runs (InState (B * 2 ^ n)) (yGate im mim t c v (B * 2 ^ n)) m
      (onState (B * 2 ^ n) (applyMat [q] U cs) m) := by
  obtain ⟨u1, u2, u3, u4⟩ := hU
  unfold yGate
  simp only [BitVec.or_comm c t]
  refine oneTarget_spec h hq cs hcs
    (fun b => do mulCell b im; mulCell (b ||| t) mim; swapCells b (b ||| t)) U m ?_ ?_ ?_
  · intro b hne
    simp [swapCells, mulCell, Prog.store_def, Prog.Within]
  · intro b hne
    have hne' := fun e => hne (Eq.symm e)
    simp [swapCells, mulCell, Prog.store_def, Prog.exec, update_ne _ hne, update_ne _ hne', u1, u2, mul_comm]
  · intro b hne
    have hne' := fun e => hne (Eq.symm e)
    simp [swapCells, mulCell, Prog.store_def, Prog.exec, update_ne _ hne, u3, u4, mul_comm]

theorem diagGate_spec [CommSemiring R] (h : MasksOK B n t c v) (hq : IsBit t q)
    (cs : List (Nat × Bool)) (hcs : ∀ j : U64, j &&& c = v ↔ CtrlOK cs j) (d0 d1 : R) (U : Nat → Nat → R)
    (hU : U 0 0 = d0 ∧ U 0 1 = 0 ∧ U 1 0 = 0 ∧ U 1 1 = d1) (m : U64 → R) :
    Runs (InState (B * 2 ^ n)) (diagGate t c v d0 d1 (B * 2 ^ n)) m
      (onState (B * 2 ^ n) (applyMat [q] U cs) m) := by
  obtain ⟨u1, u2, u3, u4⟩ := hU
  unfold diagGate
  refine oneTarget_spec h hq cs hcs (fun b => do mulCell b d0; mulCell (b ||| t) d1) U m ?_ ?_ ?_
  · intro b hne
    simp [mulCell, Prog.store_def, Prog.Within]
  · intro b hne
    simp [mulCell, Prog.store_def, Prog.exec, update_ne _ hne, u1, u2, mul_comm]
  · intro b hne
    have hne' := fun e => hne (Eq.symm e)
    simp [mulCell, Prog.store_def, Prog.exec, update_ne _ hne', u3, u4, mul_comm]

theorem dense1Scalar_spec [CommSemiring R] (h : MasksOK B n t c v) (hq : IsBit t q)
    (cs : List (Nat × Bool)) (hcs : ∀ j : U64, j &&& c = v ↔ CtrlOK cs j) (M : M22 R) (U : Nat → Nat → R)
    (hU : U 0 0 = M.m00 ∧ U 0 1 = M.m01 ∧ U 1 0 = M.m10 ∧ U 1 1 = M.m11) (m : U64 → R) :
    Runs (InState (B * 2 ^ n)) (dense1Scalar t c v M (B * 2 ^ n)) m
      (onState (B * 2 ^ n) (applyMat [q] U cs) m) := by
  obtain ⟨u1, u2, u3, u4⟩ := hU
  unfold dense1Scalar
  simp only [BitVec.or_comm c t]
  refine oneTarget_spec h hq cs hcs (fun basis0 => do
    let val0 ← Prog.load basis0
    let val1 ← Prog.load (basis0 ||| t)
    Prog.store basis0 (M.m00 * val0 + M.m01 * val1)
    Prog.store (basis0 ||| t) (M.m10 * val0 + M.m11 * val1)) U m ?_ ?_ ?_
  · intro b hne
    simp [Prog.store_def, Prog.Within]
  · intro b hne
    simp [Prog.store_def, Prog.exec, update_ne _ hne, u1, u2]
  · intro b hne
    simp [Prog.store_def, Prog.exec, u3, u4]

theorem zeroTargetScalar_spec [CommSemiring R] (h : MasksOK B n 0 c v)
    (cs : List (Nat × Bool)) (hcs : ∀ j : U64, j &&& c = v ↔ CtrlOK cs j) (z : R) (U : Nat → Nat → R)
    (hU : U 0 0 = z) (m : U64 → R) :
    Runs (InState (B * 2 ^ n)) (zeroTargetScalar c v z (B * 2 ^ n)) m
      (onState (B * 2 ^ n) (applyMat [] U cs) m) := by
  unfold zeroTargetScalar
  refine zeroTarget_spec h cs hcs (fun b => mulCell b z) U m ?_ ?_
  · intro b; simp [mulCell, Prog.store_def, Prog.Within]
  · intro b; simp [mulCell, Prog.store_def, Prog.exec, hU, mul_comm]

theorem swapGate_spec [CommSemiring R] {q0 q1 : Nat} (h : MasksOK B n t c v) (hlt : q0 < q1) (h1 : q1 < 64)
    (ht : ∀ i, t.getLsbD i = (decide (i = q0) || decide (i = q1)))
    (cs : List (Nat × Bool)) (hcs : ∀ j : U64, j &&& c = v ↔ CtrlOK cs j) (U : Nat → Nat → R)
    (hU : ∀ r s, r < 4 → s < 4 → U r s = if r % 2 = s / 2 ∧ r / 2 = s % 2 then 1 else 0) (m : U64 → R) :
    Runs (InState (B * 2 ^ n)) (swapGate t c v (B * 2 ^ n)) m
      (onState (B * 2 ^ n) (applyMat [q0, q1] U cs) m) := by
  obtain ⟨hb0, hb1⟩ := lowest_bit hlt h1 ht
  have htor : t = (t &&& -t) ||| (t ^^^ (t &&& -t)) := by
    apply U64.ext; intro i hi
    rw [BitVec.getLsbD_or, hb0.2, hb1.2, ht]
  unfold swapGate
  refine twoTarget_spec htor h hb0 hb1 (by omega) cs hcs
    (fun basis => swapCells (basis ||| (t &&& -t)) (basis ||| (t ^^^ (t &&& -t)))) U m ?_ ?_ ?_ ?_ ?_
  · intro b hd; simp [swapCells, Prog.store_def, Prog.Within]
  all_goals
    intro b hd
    simp [swapCells, Prog.store_def, Prog.exec, hU, update_ne _ hd.d01, update_ne _ hd.d02, update_ne _ hd.d12,
      update_ne _ hd.d13.symm, update_ne _ hd.d23.symm]

theorem dense2_spec [CommSemiring R] {q0 q1 : Nat} (h : MasksOK B n t c v) (hlt : q0 < q1) (h1 : q1 < 64)
    (ht : ∀ i, t.getLsbD i = (decide (i = q0) || decide (i = q1)))
    (cs : List (Nat × Bool)) (hcs : ∀ j : U64, j &&& c = v ↔ CtrlOK cs j) (M : Fin 4 → Fin 4 → R)
    (U : Nat → Nat → R) (hU : ∀ r s : Fin 4, U r s = M r s) (m : U64 → R) :
    Runs (InState (B * 2 ^ n)) (dense2 t c v M (B * 2 ^ n)) m
      (onState (B * 2 ^ n) (applyMat [q0, q1] U cs) m) := by
  obtain ⟨hb0, hb1⟩ := lowest_bit hlt h1 ht
  have htor : t = (t &&& -t) ||| (t ^^^ (t &&& -t)) := by
    apply U64.ext; intro i hi
    rw [BitVec.getLsbD_or, hb0.2, hb1.2, ht]
  have hor3 : ∀ b : U64, b ||| (t &&& -t) ||| t = b ||| (t &&& -t) ||| (t ^^^ (t &&& -t)) := by
    intro b; apply U64.ext; intro i hi
    simp only [BitVec.getLsbD_or, hb0.2, hb1.2, ht]
    cases b.getLsbD i <;> cases decide (i = q0) <;> simp
  have e : ∀ r s : Fin 4, M r s = U r s := fun r s => (hU r s).symm
  unfold dense2
  simp only [BitVec.and_comm (-t) t, hor3, e]
  refine twoTarget_spec htor h hb0 hb1 (by omega) cs hcs (fun basis0 => do
    let val0 ← Prog.load basis0
    let val1 ← Prog.load (basis0 ||| (t &&& -t))
    let val2 ← Prog.load (basis0 ||| (t ^^^ (t &&& -t)))
    let val3 ← Prog.load (basis0 ||| (t &&& -t) ||| (t ^^^ (t &&& -t)))
    Prog.store basis0 (U 0 0 * val0 + U 0 1 * val1 + U 0 2 * val2 + U 0 3 * val3)
    Prog.store (basis0 ||| (t &&& -t)) (U 1 0 * val0 + U 1 1 * val1 + U 1 2 * val2 + U 1 3 * val3)
    Prog.store (basis0 ||| (t ^^^ (t &&& -t))) (U 2 0 * val0 + U 2 1 * val1 + U 2 2 * val2 + U 2 3 * val3)
    Prog.store (basis0 ||| (t &&& -t) ||| (t ^^^ (t &&& -t)))
      (U 3 0 * val0 + U 3 1 * val1 + U 3 2 * val2 + U 3 3 * val3)) U m ?_ ?_ ?_ ?_ ?_
  · intro b hd; simp [Prog.store_def, Prog.Within]
  all_goals
    intro b hd
    simp [Prog.store_def, Prog.exec, update_ne _ hd.d01, update_ne _ hd.d02, update_ne _ hd.d12,
      update_ne _ hd.d03, update_ne _ hd.d13, update_ne _ hd.d23]

/-- ECR with physical control bit `qc` and physical target bit `qt` -/
theorem ecrGate_spec [CommSemiring R] {qc qt : Nat} {pc pt : U64} (h : MasksOK B n (pt ||| pc) c v)
    (hc : IsBit pc qc) (ht : IsBit pt qt) (hne : qc ≠ qt)
    (cs : List (Nat × Bool)) (hcs : ∀ j : U64, j &&& c = v ↔ CtrlOK cs j) (im mim s : R)
    (U : Nat → Nat → R)
    (hU0 : U 0 0 = 0 ∧ U 0 1 = s ∧ U 0 2 = 0 ∧ U 0 3 = im * s)
    (hU1 : U 1 0 = s ∧ U 1 1 = 0 ∧ U 1 2 = mim * s ∧ U 1 3 = 0)
    (hU2 : U 2 0 = 0 ∧ U 2 1 = im * s ∧ U 2 2 = 0 ∧ U 2 3 = s)
    (hU3 : U 3 0 = mim * s ∧ U 3 1 = 0 ∧ U 3 2 = s ∧ U 3 3 = 0) (m : U64 → R) :
    Runs (InState (B * 2 ^ n)) (ecrGate im mim s pt pc c v (B * 2 ^ n)) m
      (onState (B * 2 ^ n) (applyMat [qc, qt] U cs) m) := by
  unfold ecrGate
  refine twoTarget_spec (BitVec.or_comm pt pc) h hc ht hne cs hcs (fun basis0 => do
    let val0 ← Prog.load basis0
    let val1 ← Prog.load (basis0 ||| pc)
    let val2 ← Prog.load (basis0 ||| pt)
    let val3 ← Prog.load (basis0 ||| pc ||| pt)
    Prog.store basis0 ((val1 + val3 * im) * s)
    Prog.store (basis0 ||| pc) ((val0 + val2 * mim) * s)
    Prog.store (basis0 ||| pt) ((val1 * im + val3) * s)
    Prog.store (basis0 ||| pc ||| pt) ((val0 * mim + val2) * s)) U m ?_ ?_ ?_ ?_ ?_
  · intro b hd; simp [Prog.store_def, Prog.Within]
  all_goals
    intro b hd
    simp [Prog.store_def, Prog.exec, update_ne _ hd.d01, update_ne _ hd.d02, update_ne _ hd.d12,
      update_ne _ hd.d03, update_ne _ hd.d13, update_ne _ hd.d23, hU0, hU1, hU2, hU3]
  all_goals ring

end

/-- the lane counts that can occur: SIMD off, or a power of two -/
def LanesOK (L : Nat) : Prop := L = 0 ∨ ∃ l, l < 64 ∧ L = 2 ^ l

theorem dense1_spec {B n q L : Nat} {t c v : U64} (hL : LanesOK L) (h : MasksOK B n t c v) (hq : IsBit t q)
    (cs : List (Nat × Bool)) (hcs : ∀ j : U64, j &&& c = v ↔ CtrlOK cs j) (M : M22 ℂ) (U : Nat → Nat → ℂ)
    (hU : U 0 0 = M.m00 ∧ U 0 1 = M.m01 ∧ U 1 0 = M.m10 ∧ U 1 1 = M.m11) (m : U64 → ℂ) :
    DRuns (B * 2 ^ n) (dense1 L n t c v M (B * 2 ^ n)) m (onState (B * 2 ^ n) (applyMat [q] U cs) m) := by
  unfold dense1
  split
  · rename_i hc
    obtain ⟨h1, h2, h3⟩ := hc
    rcases hL with rfl | ⟨l, hl, rfl⟩
    · omega
    have hlow := lane_bits_clear hl h3
    have := dense1Simd_spec h hq hl (lanes_fit h2) hlow cs hcs M m
    have e : onState (B * 2 ^ n) (applyMat [q] (mat2 M.m00 M.m01 M.m10 M.m11) cs) m =
        onState (B * 2 ^ n) (applyMat [q] U cs) m := by
      funext j
      unfold onState
      rw [applyMat_one, applyMat_one]
      obtain ⟨u1, u2, u3, u4⟩ := hU
      cases j.getLsbD q <;> simp [mat2, u1, u2, u3, u4]
    rw [e] at this
    exact this
  · exact dense1Scalar_spec h hq cs hcs M U hU m

theorem zeroTarget_dspec {B n L : Nat} {c v : U64} (hL : LanesOK L) (h : MasksOK B n 0 c v)
    (cs : List (Nat × Bool)) (hcs : ∀ j : U64, j &&& c = v ↔ CtrlOK cs j) (z : ℂ) (U : Nat → Nat → ℂ)
    (hU : U 0 0 = z) (m : U64 → ℂ) :
    DRuns (B * 2 ^ n) (zeroTarget L n c v z (B * 2 ^ n)) m (onState (B * 2 ^ n) (applyMat [] U cs) m) := by
  unfold zeroTarget
  split
  · rename_i hc
    obtain ⟨h1, h2, h3⟩ := hc
    rcases hL with rfl | ⟨l, hl, rfl⟩
    · omega
    have := zeroTargetSimd_spec h hl (lanes_fit h2) (lane_bits_clear hl h3) cs hcs z m
    have e : onState (B * 2 ^ n) (applyMat [] (fun _ _ => z) cs) m =
        onState (B * 2 ^ n) (applyMat [] U cs) m := by
      funext j
      unfold onState
      rw [applyMat_nil, applyMat_nil, hU]
    rw [e] at this
    exact this
  · exact zeroTargetScalar_spec h cs hcs z U hU m

end Verif.Model
