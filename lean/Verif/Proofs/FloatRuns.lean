import Verif.Proofs.FloatExact
import Verif.Proofs.Pauli
import Verif.Proofs.Perm

/-!
# What the kernels compute, for numbers of any kind

No law of arithmetic is used: `R` is any type with the operations, so the statements hold for rounded arithmetic and
say that every operation is performed on the same operands in the same order under every schedule.
-/

namespace Verif.Proofs
open Verif Verif.Spec Verif.Model
attribute [-simp] BitVec.getLsbD_eq_getElem

section
variable {R : Type} {B n q : Nat} {t c v : U64}

/-- new amplitudes of a kernel with one target -/
def oneOut (B n q : Nat) (t c v : U64) (f0 f1 : R → R → R) (m : U64 → R) : U64 → R := fun j =>
  if InState (B * 2 ^ n) j ∧ j &&& c = v then
    (if j.getLsbD q then f1 (m (j &&& ~~~t)) (m j) else f0 (m j) (m (j ||| t))) else m j

/-- new amplitudes of a kernel with two targets -/
def twoOut (B n q0 q1 : Nat) (t0 t1 c v : U64) (f : Bool → Bool → R → R → R → R → R) (m : U64 → R) : U64 → R := fun j =>
  if InState (B * 2 ^ n) j ∧ j &&& c = v then
    f (j.getLsbD q0) (j.getLsbD q1) (m (j &&& ~~~t0 &&& ~~~t1)) (m ((j ||| t0) &&& ~~~t1))
      (m (j &&& ~~~t0 ||| t1)) (m (j ||| t0 ||| t1)) else m j

/-- new amplitudes of a kernel acting on the pairs `{j, j ^ x}` -/
def pairOut (B n : Nat) (c v x : U64) (f : U64 → R → R → R) (m : U64 → R) : U64 → R := fun j =>
  if InState (B * 2 ^ n) j ∧ j &&& c = v then f j (m j) (m (j ^^^ x)) else m j

theorem oneOut_runs (h : MasksOK B n t c v) (hq : IsBit t q)
    (g : U64 → Prog U64 R Unit) (f0 f1 : R → R → R) (m : U64 → R)
    (hwithin : ∀ b, b ≠ b ||| t → (g b).Within (fun j => j = b ∨ j = b ||| t))
    (h0 : ∀ b, b ≠ b ||| t → (g b).exec m b = f0 (m b) (m (b ||| t)))
    (h1 : ∀ b, b ≠ b ||| t → (g b).exec m (b ||| t) = f1 (m b) (m (b ||| t))) :
    Runs (InState (B * 2 ^ n))
      (parallelFor (workItems (B * 2 ^ n) (t ||| c)) (fun it => g (insertZero it (t ||| c) ||| v))) m
      (oneOut B n q t c v f0 f1 m) :=
  oneTarget_runs h hq g f0 f1 m _ hwithin h0 h1 (fun _ => rfl)

theorem twoOut_runs {q0 q1 : Nat} {t0 t1 : U64} (ht : t = t0 ||| t1)
    (h : MasksOK B n t c v) (hq0 : IsBit t0 q0) (hq1 : IsBit t1 q1) (hne : q0 ≠ q1)
    (g : U64 → Prog U64 R Unit) (f : Bool → Bool → R → R → R → R → R) (m : U64 → R)
    (hwithin : ∀ b, Distinct4 b t0 t1 →
      (g b).Within (fun j => j = b ∨ j = b ||| t0 ∨ j = b ||| t1 ∨ j = b ||| t0 ||| t1))
    (h00 : ∀ b, Distinct4 b t0 t1 → (g b).exec m b =
      f false false (m b) (m (b ||| t0)) (m (b ||| t1)) (m (b ||| t0 ||| t1)))
    (h10 : ∀ b, Distinct4 b t0 t1 → (g b).exec m (b ||| t0) =
      f true false (m b) (m (b ||| t0)) (m (b ||| t1)) (m (b ||| t0 ||| t1)))
    (h01 : ∀ b, Distinct4 b t0 t1 → (g b).exec m (b ||| t1) =
      f false true (m b) (m (b ||| t0)) (m (b ||| t1)) (m (b ||| t0 ||| t1)))
    (h11 : ∀ b, Distinct4 b t0 t1 → (g b).exec m (b ||| t0 ||| t1) =
      f true true (m b) (m (b ||| t0)) (m (b ||| t1)) (m (b ||| t0 ||| t1))) :
    Runs (InState (B * 2 ^ n))
      (parallelFor (workItems (B * 2 ^ n) (t ||| c)) (fun it => g (insertZero it (t ||| c) ||| v))) m
      (twoOut B n q0 q1 t0 t1 c v f m) :=
  twoTarget_runs ht h hq0 hq1 hne g f m _ hwithin h00 h10 h01 h11 (fun _ => rfl)

theorem phaseGate_any [Mul R] (h : MasksOK B n t c v) (hq : IsBit t q) (phase : R) (m : U64 → R) :
    Runs (InState (B * 2 ^ n)) (phaseGate t c v phase (B * 2 ^ n)) m
      (oneOut B n q t c v (fun a _ => a) (fun _ b => b * phase) m) := by
  unfold phaseGate
  simp only [BitVec.or_comm c t]
  refine oneOut_runs h hq (fun b => mulCell (b ||| t) phase) _ _ m ?_ ?_ ?_
  · intro b hne; exact ⟨.inr rfl, fun _ => ⟨.inr rfl, trivial⟩⟩
  · intro b hne; simp [mulCell, Prog.store_def, Prog.exec, update_ne _ hne]
  · intro b hne; simp [mulCell, Prog.store_def, Prog.exec]

theorem xGate_any (h : MasksOK B n t c v) (hq : IsBit t q) (m : U64 → R) :
    Runs (InState (B * 2 ^ n)) (xGate t c v (B * 2 ^ n)) m
      (oneOut B n q t c v (fun _ b => b) (fun a _ => a) m) := by
  unfold xGate
  simp only [BitVec.or_comm c t]
  refine oneOut_runs h hq (fun b => swapCells b (b ||| t)) _ _ m ?_ ?_ ?_
  · intro b hne; exact ⟨.inl rfl, fun _ => ⟨.inr rfl, fun _ => ⟨.inl rfl, .inr rfl, trivial⟩⟩⟩
  · intro b hne; simp [swapCells, Prog.store_def, Prog.exec, update_ne _ hne]
  · intro b hne; simp [swapCells, Prog.store_def, Prog.exec]

theorem yGate_any [Mul R] (h : MasksOK B n t c v) (hq : IsBit t q) (im mim : R) (m : U64 → R) :
    Runs (InState (B * 2 ^ n)) (yGate im mim t c v (B * 2 ^ n)) m
      (oneOut B n q t c v (fun _ b => b * mim) (fun a _ => a * im) m) := by
  unfold yGate
  simp only [BitVec.or_comm c t]
  refine oneOut_runs h hq
    (fun b => do mulCell b im; mulCell (b ||| t) mim; swapCells b (b ||| t)) _ _ m ?_ ?_ ?_
  · intro b hne
    simp [swapCells, mulCell, Prog.store_def, Prog.Within]
  · intro b hne
    have hne' := fun e => hne (Eq.symm e)
    simp [swapCells, mulCell, Prog.store_def, Prog.exec, update_ne _ hne, update_ne _ hne']
  · intro b hne
    have hne' := fun e => hne (Eq.symm e)
    simp [swapCells, mulCell, Prog.store_def, Prog.exec, update_ne _ hne]

theorem diagGate_any [Mul R] (h : MasksOK B n t c v) (hq : IsBit t q) (d0 d1 : R) (m : U64 → R) :
    Runs (InState (B * 2 ^ n)) (diagGate t c v d0 d1 (B * 2 ^ n)) m
      (oneOut B n q t c v (fun a _ => a * d0) (fun _ b => b * d1) m) := by
  unfold diagGate
  refine oneOut_runs h hq (fun b => do mulCell b d0; mulCell (b ||| t) d1) _ _ m ?_ ?_ ?_
  · intro b hne
    simp [mulCell, Prog.store_def, Prog.Within]
  · intro b hne
    simp [mulCell, Prog.store_def, Prog.exec, update_ne _ hne]
  · intro b hne
    have hne' := fun e => hne (Eq.symm e)
    simp [mulCell, Prog.store_def, Prog.exec, update_ne _ hne']

theorem dense1Scalar_any [Add R] [Mul R] (h : MasksOK B n t c v) (hq : IsBit t q) (M : M22 R) (m : U64 → R) :
    Runs (InState (B * 2 ^ n)) (dense1Scalar t c v M (B * 2 ^ n)) m
      (oneOut B n q t c v (fun a b => M.m00 * a + M.m01 * b) (fun a b => M.m10 * a + M.m11 * b) m) := by
  unfold dense1Scalar
  simp only [BitVec.or_comm c t]
  refine oneOut_runs h hq (fun basis0 => do
    let val0 ← Prog.load basis0
    let val1 ← Prog.load (basis0 ||| t)
    Prog.store basis0 (M.m00 * val0 + M.m01 * val1)
    Prog.store (basis0 ||| t) (M.m10 * val0 + M.m11 * val1)) _ _ m ?_ ?_ ?_
  · intro b hne
    simp [Prog.store_def, Prog.Within]
  · intro b hne
    simp [Prog.store_def, Prog.exec, update_ne _ hne]
  · intro b hne
    simp [Prog.store_def, Prog.exec]

theorem zeroTargetScalar_any [Mul R] (h : MasksOK B n 0 c v) (z : R) (m : U64 → R) :
    Runs (InState (B * 2 ^ n)) (zeroTargetScalar c v z (B * 2 ^ n)) m (pairOut B n c v 0 (fun _ a _ => a * z) m) := by
  unfold zeroTargetScalar
  refine scaleKernel_runs h (fun b => mulCell b z) m _ ?_ ?_ ?_
  · intro b; simp [mulCell, Prog.store_def, Prog.Within]
  · intro b hb hc; simp [mulCell, Prog.store_def, Prog.exec, pairOut, hb, hc]
  · intro j hj; simp only [pairOut, if_neg hj]

theorem dense2_any [Add R] [Mul R] {q0 q1 : Nat} (h : MasksOK B n t c v) (hlt : q0 < q1) (h1 : q1 < 64)
    (ht : ∀ i, t.getLsbD i = (decide (i = q0) || decide (i = q1))) (M : Fin 4 → Fin 4 → R) (m : U64 → R) :
    Runs (InState (B * 2 ^ n)) (dense2 t c v M (B * 2 ^ n)) m
      (twoOut B n q0 q1 (t &&& -t) (t ^^^ (t &&& -t)) c v (fun x0 x1 a b c d => match x0, x1 with
        | false, false => M 0 0 * a + M 0 1 * b + M 0 2 * c + M 0 3 * d
        | true, false => M 1 0 * a + M 1 1 * b + M 1 2 * c + M 1 3 * d
        | false, true => M 2 0 * a + M 2 1 * b + M 2 2 * c + M 2 3 * d
        | true, true => M 3 0 * a + M 3 1 * b + M 3 2 * c + M 3 3 * d) m) := by
  obtain ⟨hb0, hb1⟩ := lowest_bit hlt h1 ht
  have htor : t = (t &&& -t) ||| (t ^^^ (t &&& -t)) := by
    apply U64.ext; intro i hi
    rw [BitVec.getLsbD_or, hb0.2, hb1.2, ht]
  have hor3 : ∀ b : U64, b ||| (t &&& -t) ||| t = b ||| (t &&& -t) ||| (t ^^^ (t &&& -t)) := by
    intro b; apply U64.ext; intro i hi
    simp only [BitVec.getLsbD_or, hb0.2, hb1.2, ht]
    cases b.getLsbD i <;> cases decide (i = q0) <;> simp
  unfold dense2
  simp only [BitVec.and_comm (-t) t, hor3]
  refine twoOut_runs htor h hb0 hb1 (by omega) (fun basis0 => do
    let val0 ← Prog.load basis0
    let val1 ← Prog.load (basis0 ||| (t &&& -t))
    let val2 ← Prog.load (basis0 ||| (t ^^^ (t &&& -t)))
    let val3 ← Prog.load (basis0 ||| (t &&& -t) ||| (t ^^^ (t &&& -t)))
    Prog.store basis0 (M 0 0 * val0 + M 0 1 * val1 + M 0 2 * val2 + M 0 3 * val3)
    Prog.store (basis0 ||| (t &&& -t)) (M 1 0 * val0 + M 1 1 * val1 + M 1 2 * val2 + M 1 3 * val3)
    Prog.store (basis0 ||| (t ^^^ (t &&& -t))) (M 2 0 * val0 + M 2 1 * val1 + M 2 2 * val2 + M 2 3 * val3)
    Prog.store (basis0 ||| (t &&& -t) ||| (t ^^^ (t &&& -t)))
      (M 3 0 * val0 + M 3 1 * val1 + M 3 2 * val2 + M 3 3 * val3)) _ m ?_ ?_ ?_ ?_ ?_
  · intro b hd; simp [Prog.store_def, Prog.Within]
  all_goals
    intro b hd
    simp [Prog.store_def, Prog.exec, update_ne _ hd.d01, update_ne _ hd.d02, update_ne _ hd.d12,
      update_ne _ hd.d03, update_ne _ hd.d13, update_ne _ hd.d23]

theorem ecrGate_any [Add R] [Mul R] {qc qt : Nat} {pc pt : U64} (h : MasksOK B n (pt ||| pc) c v)
    (hc : IsBit pc qc) (ht : IsBit pt qt) (hne : qc ≠ qt) (im mim s : R) (m : U64 → R) :
    Runs (InState (B * 2 ^ n)) (ecrGate im mim s pt pc c v (B * 2 ^ n)) m
      (twoOut B n qc qt pc pt c v (fun x0 x1 v0 v1 v2 v3 => match x0, x1 with
        | false, false => (v1 + v3 * im) * s
        | true, false => (v0 + v2 * mim) * s
        | false, true => (v1 * im + v3) * s
        | true, true => (v0 * mim + v2) * s) m) := by
  unfold ecrGate
  refine twoOut_runs (BitVec.or_comm pt pc) h hc ht hne (fun basis0 => do
    let val0 ← Prog.load basis0
    let val1 ← Prog.load (basis0 ||| pc)
    let val2 ← Prog.load (basis0 ||| pt)
    let val3 ← Prog.load (basis0 ||| pc ||| pt)
    Prog.store basis0 ((val1 + val3 * im) * s)
    Prog.store (basis0 ||| pc) ((val0 + val2 * mim) * s)
    Prog.store (basis0 ||| pt) ((val1 * im + val3) * s)
    Prog.store (basis0 ||| pc ||| pt) ((val0 * mim + val2) * s)) _ m ?_ ?_ ?_ ?_ ?_
  · intro b hd; simp [Prog.store_def, Prog.Within]
  all_goals
    intro b hd
    simp [Prog.store_def, Prog.exec, update_ne _ hd.d01, update_ne _ hd.d02, update_ne _ hd.d12,
      update_ne _ hd.d03, update_ne _ hd.d13, update_ne _ hd.d23]

theorem pauliDiag_any [Mul R] [Neg R] (h : MasksOK B n 0 c v) (z : U64) (coef : R) (m : U64 → R) :
    Runs (InState (B * 2 ^ n)) (pauliDiag c v z coef (B * 2 ^ n)) m
      (pairOut B n c v 0 (fun j a _ => a * (if oddParity (j &&& z) then -coef else coef)) m) := by
  unfold pauliDiag
  refine scaleKernel_runs h
    (fun idx => if oddParity (idx &&& z) then mulCell idx (-coef) else mulCell idx coef) m _ ?_ ?_ ?_
  · intro b; split <;> simp [mulCell, Prog.store_def, Prog.Within]
  · intro b hb hc
    simp only [pairOut, hb, hc, and_self, if_true]
    split <;> simp [mulCell, Prog.store_def, Prog.exec]
  · intro j hj; simp only [pairOut, if_neg hj]

theorem pauliRotDiag_any [Mul R] (h : MasksOK B n 0 c v) (z : U64) (a b : R) (m : U64 → R) :
    Runs (InState (B * 2 ^ n)) (pauliRotDiag c v z a b (B * 2 ^ n)) m
      (pairOut B n c v 0 (fun j y _ => y * (if oddParity (j &&& z) then a else b)) m) := by
  unfold pauliRotDiag
  refine scaleKernel_runs h
    (fun idx => if oddParity (idx &&& z) then mulCell idx a else mulCell idx b) m _ ?_ ?_ ?_
  · intro b; split <;> simp [mulCell, Prog.store_def, Prog.Within]
  · intro b hb hc
    simp only [pairOut, hb, hc, and_self, if_true]
    split <;> simp [mulCell, Prog.store_def, Prog.exec]
  · intro j hj; simp only [pairOut, if_neg hj]

theorem pauliFlip_any [Mul R] [Neg R] {x : U64} (h : FlipOK B n c v x) (hx : x ≠ 0) (z : U64) (ph coef : R) (m : U64 → R) :
    Runs (InState (B * 2 ^ n)) (pauliFlip c v x z ph coef (B * 2 ^ n)) m
      (pairOut B n c v x (fun j _ y => (if oddParity (j &&& z) then -(y * ph) else y * ph) * coef) m) := by
  unfold pauliFlip
  refine flipKernel_runs h hx (fun basis0 => do
      let a ← Prog.load basis0
      let b ← Prog.load (basis0 ^^^ x)
      let tmp1 := a * ph
      let tmp2 := b * ph
      let tmp2 := if oddParity (basis0 &&& z) then -tmp2 else tmp2
      let tmp1 := if oddParity ((basis0 ^^^ x) &&& z) then -tmp1 else tmp1
      Prog.store basis0 (tmp2 * coef)
      Prog.store (basis0 ^^^ x) (tmp1 * coef)) m _ ?_ ?_ ?_ ?_
  · intro b; simp [Prog.store_def, Prog.Within]
  · intro b hb hc
    simp [Prog.store_def, Prog.exec, update_ne _ (xor_ne hx b), pairOut, hb, hc]
  · intro b hb hc
    simp only [pairOut, (h.inState_xor b).2 hb, (h.ctrl_xor b).2 hc, and_self, if_true, xor_xor_cancel]
    simp [Prog.store_def, Prog.exec]
  · intro j hj; simp only [pairOut, if_neg hj]

theorem pauliRotFlip_any [Add R] [Mul R] {x : U64} (h : FlipOK B n c v x) (hx : x ≠ 0) (im : R) (rot : Nat → R) (z : U64)
    (cosval sinval : R) (m : U64 → R) :
    Runs (InState (B * 2 ^ n)) (pauliRotFlip im rot c v x z cosval sinval (B * 2 ^ n)) m
      (pairOut B n c v x (fun j a b => cosval * a + im * sinval * b *
        rot (popcount (x &&& z) + popcount (j &&& z) % 2 * 2)) m) := by
  unfold pauliRotFlip
  refine flipKernel_runs h hx (fun basis0 => do
    let cval0 ← Prog.load basis0
    let cval1 ← Prog.load (basis0 ^^^ x)
    Prog.store basis0 (cosval * cval0 + im * sinval * cval1 *
      rot (popcount (x &&& z) + popcount (basis0 &&& z) % 2 * 2))
    Prog.store (basis0 ^^^ x) (cosval * cval1 + im * sinval * cval0 *
      rot (popcount (x &&& z) + popcount ((basis0 ^^^ x) &&& z) % 2 * 2))) m _ ?_ ?_ ?_ ?_
  · intro b; simp [Prog.store_def, Prog.Within]
  · intro b hb hc
    simp [Prog.store_def, Prog.exec, update_ne _ (xor_ne hx b), pairOut, hb, hc]
  · intro b hb hc
    simp only [pairOut, (h.inState_xor b).2 hb, (h.ctrl_xor b).2 hc, and_self, if_true, xor_xor_cancel]
    simp [Prog.store_def, Prog.exec]
  · intro j hj; simp only [pairOut, if_neg hj]

end

section
variable {R F : Type} [Cplx R F] [Zero F] [Add F] [Mul F] [Neg F] [Add R] [Mul R] {B n q : Nat} {t c v : U64}

/-- one row of the matrix applied by lane or by complex operations -/
def rowOp (simd : Bool) (x y a b : R) : R :=
  if simd then laneAdd (laneMul x a) (laneMul y b) else x * a + y * b

/-- the product by lane or by complex operations -/
def mulOp (simd : Bool) (z a : R) : R := if simd then laneMul z a else a * z

/-- whether the kernel with the mask `k` of targets and controls uses SIMD -/
def usesLanes (L n : Nat) (k : U64) : Bool :=
  decide (L > 0 ∧ 2 ^ n >>> popcount k ≥ L ∧ k &&& (BitVec.ofNat 64 L - 1) = 0)

theorem dense1_any {L : Nat} (hL : LanesOK L) (h : MasksOK B n t c v) (hq : IsBit t q) (M : M22 R) (m : U64 → R) :
    DRuns (B * 2 ^ n) (dense1 L n t c v M (B * 2 ^ n)) m
      (oneOut B n q t c v (rowOp (usesLanes L n (t ||| c)) M.m00 M.m01) (rowOp (usesLanes L n (t ||| c)) M.m10 M.m11) m) := by
  unfold dense1
  split
  · rename_i hc
    have e : usesLanes L n (t ||| c) = true := decide_eq_true hc
    obtain ⟨h1, h2, h3⟩ := hc
    rw [e]
    rcases hL with rfl | ⟨l, hl, rfl⟩
    · omega
    exact dense1Simd_runs h hq hl (lanes_fit h2) (lane_bits_clear hl h3) M m _ (fun j => rfl)
  · rename_i hc
    have e : usesLanes L n (t ||| c) = false := decide_eq_false hc
    rw [e]
    exact dense1Scalar_any h hq M m

theorem zeroTarget_any {L : Nat} (hL : LanesOK L) (h : MasksOK B n 0 c v) (z : R) (m : U64 → R) :
    DRuns (B * 2 ^ n) (zeroTarget L n c v z (B * 2 ^ n)) m
      (pairOut B n c v 0 (fun _ a _ => mulOp (usesLanes L n c) z a) m) := by
  unfold zeroTarget
  split
  · rename_i hc
    have e : usesLanes L n c = true := decide_eq_true hc
    obtain ⟨h1, h2, h3⟩ := hc
    rw [e]
    rcases hL with rfl | ⟨l, hl, rfl⟩
    · omega
    exact zeroTargetSimd_runs h hl (lanes_fit h2) (lane_bits_clear hl h3) z m _ (fun j => rfl)
  · rename_i hc
    have e : usesLanes L n c = false := decide_eq_false hc
    rw [e]
    exact zeroTargetScalar_any h z m

end

end Verif.Proofs
