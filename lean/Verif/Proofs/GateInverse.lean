import Verif.Proofs.GateMatrix
import Verif.Proofs.PauliAlg
import Mathlib.LinearAlgebra.Matrix.NonsingularInverse

/-! # `get_inverse()` and unitarity -/

namespace Verif.Proofs
open Verif Verif.Spec Verif.Model
attribute [-simp] BitVec.getLsbD_eq_getElem

theorem cis_zero : cis 0 = 1 := by simp [cis]
theorem cis_neg_mul (x : ℝ) : cis (-x) * cis x = 1 := by rw [← cis_add]; simp [cis_zero]
theorem cis_mul_neg (x : ℝ) : cis x * cis (-x) = 1 := by rw [← cis_add]; simp [cis_zero]
theorem conj_cis (x : ℝ) : (starRingEnd ℂ) (cis x) = cis (-x) := by
  rw [cis_eq, cis_eq]; apply Complex.ext <;> simp
theorem cis_pi : cis Real.pi = -1 := by rw [cis_eq]; apply Complex.ext <;> simp
theorem cis_neg_pi : cis (-Real.pi) = -1 := by rw [cis_eq]; apply Complex.ext <;> simp

theorem half_sqrt2 : (1 / (Real.sqrt 2 : ℂ)) * (1 / (Real.sqrt 2 : ℂ)) = 1 / 2 := by
  rw [div_mul_div_comm, one_mul, ← Complex.ofReal_mul, Real.mul_self_sqrt (by norm_num)]; norm_num

theorem cos_sin_sq (x : ℝ) : (Real.cos x : ℂ) * Real.cos x + Real.sin x * Real.sin x = 1 := by
  have := Real.cos_sq_add_sin_sq x
  rw [← Complex.ofReal_mul, ← Complex.ofReal_mul, ← Complex.ofReal_add]
  rw [show Real.cos x * Real.cos x + Real.sin x * Real.sin x = 1 by nlinarith]; simp

/-- inverse gates have the adjoint matrix -/
theorem gate1_inverse_dag {k k' : Gate1} (h : gate1Inverse k = .ok k') {r s : Nat} (hr : r < 2) (hs : s < 2) :
    gate1Mat k' r s = matDag (gate1Mat k) r s := by
  apply entries_two ?_ hr hs
  cases k <;> cases h <;> simp only [gate1Mat, matDag, mat2, pauliX, pauliY, pauliZ, rot]
  case U2 phi lam =>
    have e1 : cis (-phi + Real.pi) = -cis (-phi) := by rw [cis_add, cis_pi]; ring
    have e2 : cis (-lam - Real.pi) = -cis (-lam) := by rw [sub_eq_add_neg, cis_add, cis_neg_pi]; ring
    simp [e1, e2, conj_cis]
  case U3 θ phi lam =>
    have e3 : cis (-lam + -phi) = cis (-(phi + lam)) := by congr 1; ring
    simp [e3, conj_cis, neg_div, -Complex.ofReal_cos, -Complex.ofReal_sin]
  case U1 lam => simp [conj_cis]
  case T => simp [conj_cis]
  case Tdag => simp [conj_cis]
  case SqrtX => refine ⟨?_, ?_, ?_, ?_⟩ <;> apply Complex.ext <;> simp
  case SqrtXdag => refine ⟨?_, ?_, ?_, ?_⟩ <;> apply Complex.ext <;> simp
  case SqrtY => refine ⟨?_, ?_, ?_, ?_⟩ <;> apply Complex.ext <;> simp
  case SqrtYdag => refine ⟨?_, ?_, ?_, ?_⟩ <;> apply Complex.ext <;> simp
  case RZ θ =>
    simp [neg_div, -Complex.ofReal_cos, -Complex.ofReal_sin]
    ring
  all_goals
    simp [neg_div, -Complex.ofReal_cos, -Complex.ofReal_sin]

theorem matMul_one_eq (U V : Nat → Nat → ℂ) (r s : Nat) : matMul 1 U V r s = U r 0 * V 0 s + U r 1 * V 1 s := by
  unfold matMul
  rw [pow_one, Finset.sum_range_succ, Finset.sum_range_one]

/-- the listed one-qubit gates other than the projections are unitary -/
theorem gate1_unitary {k : Gate1} (h0 : k ≠ .P0) (h1 : k ≠ .P1) {r s : Nat} (hr : r < 2) (hs : s < 2) :
    matMul 1 (matDag (gate1Mat k)) (gate1Mat k) r s = matOne r s := by
  apply entries_two ?_ hr hs
  simp only [matMul_one_eq]
  have hc := cos_sin_sq
  have hs2 := half_sqrt2
  cases k <;> simp only [gate1Mat, matDag, mat2, pauliX, pauliY, pauliZ, rot, matOne]
  case P0 => exact absurd rfl h0
  case P1 => exact absurd rfl h1
  case SqrtX => refine ⟨?_, ?_, ?_, ?_⟩ <;> apply Complex.ext <;> simp <;> norm_num
  case SqrtXdag => refine ⟨?_, ?_, ?_, ?_⟩ <;> apply Complex.ext <;> simp <;> norm_num
  case SqrtY => refine ⟨?_, ?_, ?_, ?_⟩ <;> apply Complex.ext <;> simp <;> norm_num
  case SqrtYdag => refine ⟨?_, ?_, ?_, ?_⟩ <;> apply Complex.ext <;> simp <;> norm_num
  case U1 lam => simp [conj_cis, cis_neg_mul]
  case T => simp [conj_cis, cis_neg_mul]
  case Tdag => simp [conj_cis, cis_mul_neg]
  case H =>
    simp only [map_mul, map_div₀, map_one, Complex.conj_ofReal]
    generalize (1 / (Real.sqrt 2 : ℂ)) = w at hs2 ⊢
    simp
    linear_combination 2 * hs2
  case U2 phi lam =>
    simp only [map_mul, map_div₀, map_one, Complex.conj_ofReal]
    generalize (1 / (Real.sqrt 2 : ℂ)) = w at hs2 ⊢
    have a1 := cis_neg_mul phi
    have a2 := cis_neg_mul lam
    have a3 : cis (-phi) * cis (phi + lam) = cis lam := by rw [← cis_add]; congr 1; ring
    have a4 : cis (-(phi + lam)) * cis phi = cis (-lam) := by rw [← cis_add]; congr 1; ring
    have a5 := cis_neg_mul (phi + lam)
    simp [conj_cis, -neg_add_rev]
    refine ⟨?_, ?_, ?_, ?_⟩
    · linear_combination 2 * hs2 + w * w * a1
    · linear_combination w * w * a3
    · linear_combination w * w * a4
    · linear_combination 2 * hs2 + w * w * a2 + w * w * a5
  case U3 θ phi lam =>
    have hcs := hc (θ / 2)
    have a1 := cis_neg_mul phi
    have a2 := cis_neg_mul lam
    have a3 : cis (-phi) * cis (phi + lam) = cis lam := by rw [← cis_add]; congr 1; ring
    have a4 : cis (-(phi + lam)) * cis phi = cis (-lam) := by rw [← cis_add]; congr 1; ring
    have a5 := cis_neg_mul (phi + lam)
    simp only [if_true, if_false, one_ne_zero, zero_ne_one, map_mul, map_neg, Complex.conj_ofReal, conj_cis]
    generalize (Real.cos (θ / 2) : ℂ) = c at *
    generalize (Real.sin (θ / 2) : ℂ) = t at *
    simp [-neg_add_rev]
    refine ⟨?_, ?_, ?_, ?_⟩
    · linear_combination hcs + t * t * a1
    · linear_combination t * c * a3
    · linear_combination t * c * a4
    · linear_combination hcs + t * t * a2 + c * c * a5
  case RX θ =>
    have hcs := hc (θ / 2)
    simp only [map_mul, map_sub, Complex.conj_ofReal, Complex.conj_I]
    generalize (Real.cos (θ / 2) : ℂ) = c at *
    generalize (Real.sin (θ / 2) : ℂ) = t at *
    have hI := Complex.I_mul_I
    simp
    refine ⟨?_, ?_, ?_, ?_⟩ <;> first | linear_combination hcs - t * t * hI | ring
  case RY θ =>
    have hcs := hc (θ / 2)
    simp only [map_mul, map_sub, Complex.conj_ofReal, Complex.conj_I]
    generalize (Real.cos (θ / 2) : ℂ) = c at *
    generalize (Real.sin (θ / 2) : ℂ) = t at *
    have hI := Complex.I_mul_I
    simp
    refine ⟨?_, ?_, ?_, ?_⟩ <;> first | linear_combination hcs + t * t * (Complex.I * Complex.I - 1) * hI | ring
  case RZ θ =>
    have hcs := hc (θ / 2)
    simp only [map_mul, map_sub, Complex.conj_ofReal, Complex.conj_I]
    generalize (Real.cos (θ / 2) : ℂ) = c at *
    generalize (Real.sin (θ / 2) : ℂ) = t at *
    have hI := Complex.I_mul_I
    simp
    refine ⟨?_, ?_⟩ <;> linear_combination hcs - t * t * hI
  all_goals simp

/-- a one-sided inverse of a square matrix is two-sided -/
theorem matMul_comm_one {k : Nat} {U V : Nat → Nat → ℂ}
    (h : ∀ r s, r < 2 ^ k → s < 2 ^ k → matMul k U V r s = matOne r s) {r s : Nat} (hr : r < 2 ^ k) (hs : s < 2 ^ k) :
    matMul k V U r s = matOne r s := by
  have key : ∀ (A B : Nat → Nat → ℂ) (i j : Fin (2 ^ k)),
      ((Matrix.of fun i j : Fin (2 ^ k) => A i j) * (Matrix.of fun i j : Fin (2 ^ k) => B i j)) i j = matMul k A B i j := by
    intro A B i j
    rw [Matrix.mul_apply, matMul, ← Fin.sum_univ_eq_sum_range (fun x => A i x * B x j)]
    rfl
  have h1 : (Matrix.of fun i j : Fin (2 ^ k) => U i j) * (Matrix.of fun i j : Fin (2 ^ k) => V i j) = 1 := by
    ext i j
    rw [key, h _ _ i.isLt j.isLt, Matrix.one_apply, matOne]
    simp [Fin.ext_iff]
  have h2 := mul_eq_one_comm.1 h1
  have h3 := congrFun (congrFun h2 ⟨r, hr⟩) ⟨s, hs⟩
  rw [key, Matrix.one_apply] at h3
  rw [h3, matOne]
  simp [Fin.ext_iff]

theorem matMul_congr {k : Nat} {U U' V V' : Nat → Nat → ℂ}
    (hU : ∀ r s, r < 2 ^ k → s < 2 ^ k → U r s = U' r s) (hV : ∀ r s, r < 2 ^ k → s < 2 ^ k → V r s = V' r s)
    {r s : Nat} (hr : r < 2 ^ k) (hs : s < 2 ^ k) : matMul k U V r s = matMul k U' V' r s := by
  unfold matMul
  apply Finset.sum_congr rfl
  intro x hx
  rw [hU r x hr (Finset.mem_range.1 hx), hV x s (Finset.mem_range.1 hx) hs]

theorem matMul_two_eq (U V : Nat → Nat → ℂ) (r s : Nat) :
    matMul 2 U V r s = U r 0 * V 0 s + U r 1 * V 1 s + U r 2 * V 2 s + U r 3 * V 3 s := by
  unfold matMul
  rw [show 2 ^ 2 = 4 from rfl]
  simp [Finset.sum_range_succ]

theorem swapMat_sq {r s : Nat} (hr : r < 4) (hs : s < 4) : matMul 2 swapMat swapMat r s = matOne r s := by
  rw [matMul_two_eq]
  interval_cases r <;> interval_cases s <;> simp [swapMat, matOne]

theorem swapMat_dag {r s : Nat} (hr : r < 4) (hs : s < 4) : matDag swapMat r s = swapMat r s := by
  interval_cases r <;> interval_cases s <;> simp [swapMat, matDag]

theorem ecr_sq (g : EcrGate) {r s : Nat} (hr : r < 4) (hs : s < 4) :
    matMul 2 (matOf (.ecr g)) (matOf (.ecr g)) r s = matOne r s := by
  have hs2 := half_sqrt2
  have hI := Complex.I_mul_I
  rw [matMul_two_eq]
  simp only [matOf]
  split
  all_goals
    simp only [ecrMat, flip2]
    generalize (1 / (Real.sqrt 2 : ℂ)) = w at hs2 ⊢
    interval_cases r <;> interval_cases s <;>
      simp [pauliX, pauliY, mat2, matOne] <;>
      first | done | ring1 | linear_combination 2 * hs2 - w * w * hI

theorem ecr_dag (g : EcrGate) {r s : Nat} (hr : r < 4) (hs : s < 4) :
    matDag (matOf (.ecr g)) r s = matOf (.ecr g) r s := by
  simp only [matOf]
  split
  all_goals
    simp only [matDag, ecrMat, flip2, map_mul, map_div₀, map_one, Complex.conj_ofReal]
    interval_cases r <;> interval_cases s <;> simp [pauliX, pauliY, mat2]

theorem pauliAct_sq (x z : U64) (ψ : U64 → ℂ) : pauliAct x z (pauliAct x z ψ) = ψ := by
  have h := mul_spec ⟨1, x, z⟩ ⟨1, x, z⟩ ψ
  have hm : PauliOp.mul ⟨1, x, z⟩ ⟨1, x, z⟩ = ⟨1, 0, 0⟩ := by
    have e1 : x &&& ~~~z &&& (x &&& z) = 0 := by
      ext i hi; simp; intro a b; simp [b]
    have e2 : x &&& z &&& (z &&& ~~~x) = 0 := by
      ext i hi; simp; intro a b; simp [a]
    have e3 : z &&& ~~~x &&& (x &&& ~~~z) = 0 := by
      ext i hi; simp; intro a b; simp [b]
    have e4 : x &&& ~~~z &&& (z &&& ~~~x) = 0 := by
      ext i hi; simp; intro a b; simp [a]
    have e5 : x &&& z &&& (x &&& ~~~z) = 0 := by
      ext i hi; simp; intro a b; simp [b]
    have e6 : z &&& ~~~x &&& (x &&& z) = 0 := by
      ext i hi; simp; intro a b; simp [b]
    simp only [PauliOp.mul, e1, e2, e3, e4, e5, e6]
    simp [phase90]
  rw [hm] at h
  funext j
  have e : ∀ x z (φ : U64 → ℂ), PauliAct ⟨1, x, z⟩ φ = pauliAct x z φ := by
    intro x z φ; funext i; simp [PauliAct]
  rw [e, e, e, pauliAct_zero] at h
  exact (congrFun h j).symm

theorem pauliMat_sq (p : PauliOp) {r s : Nat} (hr : r < 2 ^ p.targetList.length) (hs : s < 2 ^ p.targetList.length) :
    matMul p.targetList.length (pauliMat p) (pauliMat p) r s = matOne r s := by
  have hT : TargetsOK p.targetList := targetsOK_maskToVector _
  refine applyMat_injective hT ?_ hr hs
  intro ψ
  rw [← applyMat_comp hT (by intro q hq; cases hq), applyMat_pauliMat, applyMat_pauliMat, pauliAct_sq,
    applyMat_one_id hT]

theorem pauliString_dag (l : List Pauli1) (r s : Nat) :
    matDag (pauliStringMat l) r s = pauliStringMat l r s := by
  induction l generalizing r s with
  | nil => simp [matDag, pauliStringMat]
  | cons P l ih =>
    have := ih (r / 2) (s / 2)
    simp only [matDag, pauliStringMat, map_mul] at this ⊢
    rw [this]
    congr 1
    have h1 : r % 2 = 0 ∨ r % 2 = 1 := by omega
    have h2 : s % 2 = 0 ∨ s % 2 = 1 := by omega
    rcases h1 with h1 | h1 <;> rcases h2 with h2 | h2 <;> rw [h1, h2] <;> cases P <;>
      simp [pauli1Mat, pauliX, pauliY, pauliZ, mat2, matOne]

theorem matMul_scale (k : Nat) (a b : ℂ) (U V : Nat → Nat → ℂ) (r s : Nat) :
    matMul k (fun r s => a * U r s) (fun r s => b * V r s) r s = a * b * matMul k U V r s := by
  unfold matMul
  rw [Finset.mul_sum]
  apply Finset.sum_congr rfl
  intro x _; ring

theorem matMul_one_left {k : Nat} (U : Nat → Nat → ℂ) {r s : Nat} (hr : r < 2 ^ k) : matMul k matOne U r s = U r s := by
  unfold matMul matOne
  simp only [ite_mul, one_mul, zero_mul]
  rw [Finset.sum_ite_eq, if_pos (Finset.mem_range.2 hr)]

theorem matMul_one_right {k : Nat} (U : Nat → Nat → ℂ) {r s : Nat} (hs : s < 2 ^ k) : matMul k U matOne r s = U r s := by
  unfold matMul matOne
  simp only [mul_ite, mul_one, mul_zero]
  rw [Finset.sum_ite_eq', if_pos (Finset.mem_range.2 hs)]

/-- (a + b P)(c + d P) = (ac + bd) + (ad + bc) P when P P = 1 -/
theorem matMul_affine {k : Nat} {P : Nat → Nat → ℂ} (a b c d : ℂ)
    (hP : ∀ r s, r < 2 ^ k → s < 2 ^ k → matMul k P P r s = matOne r s) {r s : Nat} (hr : r < 2 ^ k) (hs : s < 2 ^ k) :
    matMul k (fun r s => a * matOne r s + b * P r s) (fun r s => c * matOne r s + d * P r s) r s =
      (a * c + b * d) * matOne r s + (a * d + b * c) * P r s := by
  have e : matMul k (fun r s => a * matOne r s + b * P r s) (fun r s => c * matOne r s + d * P r s) r s =
      a * c * matMul k matOne matOne r s + a * d * matMul k matOne P r s + b * c * matMul k P matOne r s +
        b * d * matMul k P P r s := by
    unfold matMul
    simp only [Finset.mul_sum, ← Finset.sum_add_distrib]
    apply Finset.sum_congr rfl
    intro x _; ring
  rw [e, matMul_one_left _ hr, matMul_one_left _ hr, matMul_one_right _ hs, hP r s hr hs]
  ring

theorem pauliMat_dag (p : PauliOp) (r s : Nat) : (starRingEnd ℂ) (pauliMat p s r) = pauliMat p r s :=
  pauliString_dag _ r s

theorem matOne_dag (r s : Nat) : (starRingEnd ℂ) (matOne s r) = matOne r s := by
  unfold matOne
  by_cases h : r = s
  · subst h; simp
  · rw [if_neg h, if_neg (Ne.symm h)]; simp

/-- the inverse permutation has the adjoint matrix -/
theorem permMat_dag {dst inv : List Nat} (hd : IsPerm dst) (hl : inv.length = dst.length)
    (h : ∀ m (hm : m < dst.length), inv[dst[m]]? = some m) (r s : Nat) :
    permMat inv r s = matDag (permMat dst) r s := by
  have hget : ∀ m (hm : m < dst.length), ∃ h' : dst[m] < inv.length, inv[dst[m]] = m := fun m hm =>
    List.getElem?_eq_some_iff.1 (h m hm)
  have key : (∀ q (h : q < inv.length), r.testBit inv[q] = s.testBit q) ↔
      (∀ q (h : q < dst.length), s.testBit dst[q] = r.testBit q) := by
    constructor
    · intro hh m hm
      obtain ⟨h1, h2⟩ := hget m hm
      rw [← hh _ h1, h2]
    · intro hh q hq
      obtain ⟨m, hm, rfl⟩ := isPerm_mem hd (i := q) (by omega)
      obtain ⟨h1, h2⟩ := hget m hm
      rw [h2, hh m hm]
  unfold matDag permMat
  by_cases hc : ∀ q (h : q < dst.length), s.testBit dst[q] = r.testBit q
  · rw [if_pos (key.2 hc), if_pos hc, map_one]
  · rw [if_neg (fun x => hc (key.1 x)), if_neg hc, map_zero]

theorem permMat_inverse {dst inv : List Nat} (hk : dst.length ≤ 64) (hd : IsPerm dst) (hi : IsPerm inv)
    (hl : inv.length = dst.length) (h : ∀ m (hm : m < dst.length), inv[dst[m]]? = some m) {r s : Nat}
    (hr : r < 2 ^ dst.length) (hs : s < 2 ^ dst.length) :
    matMul dst.length (permMat inv) (permMat dst) r s = matOne r s := by
  have hT := targetsOK_range hk
  have e := applyMat_injective hT (U := matMul dst.length (permMat inv) (permMat dst)) (V := matOne) (r := r) (s := s) ?_
    (by simpa using hr) (by simpa using hs)
  · exact e
  · intro ψ
    have hc := applyMat_comp hT (cs := []) (by intro q hq; cases hq) (permMat inv) (permMat dst) ψ
    rw [List.length_range] at hc
    rw [← hc, applyMat_one_id hT]
    funext j
    have h1 := applyMat_permMat (dst := inv) (by omega) hi (applyMat (List.range dst.length) (permMat dst) [] ψ) j
    rw [hl] at h1
    rw [h1, applyMat_permMat hk hd, (perm_inverse_index hk hd hl h j).2]

/-! ## Unitary objects -/

/-- sufficient for the operator of an object to be unitary -/
def UnitaryHyp : UGate → Prop
  | .ident => True
  | .globalPhase _ _ => True
  | .one k _ => k ≠ .P0 ∧ k ≠ .P1
  | .swap _ => True
  | .ecr _ => True
  | .perm _ => True
  | .dense g => ∀ r s, r < 2 ^ (maskToVector g.o.t).length → s < 2 ^ (maskToVector g.o.t).length →
      matMul (maskToVector g.o.t).length (matDag g.mat.entry) g.mat.entry r s = matOne r s
  | .sparse g => ∀ r s, r < 2 ^ (maskToVector g.o.t).length → s < 2 ^ (maskToVector g.o.t).length →
      matMul (maskToVector g.o.t).length (matDag (matOf (.sparse g))) (matOf (.sparse g)) r s = matOne r s
  | .pauli g => (starRingEnd ℂ) g.p.coef * g.p.coef = 1
  | .pauliRot g _ => g.p.coef.im = 0

theorem ts_pauli {g : PauliGate} (h : g.o.t = g.p.x ||| g.p.z) : maskToVector g.o.t = g.p.targetList := by
  rw [h]; rfl

theorem valid_ctrlDisj {g : UGate} (hv : Valid g) : CtrlDisj (UGate.cs g) (UGate.ts g) := by
  have key : ∀ o : Operands, OperandsOK o → CtrlDisj (controls o) (maskToVector o.t) := by
    intro o ho p hp hq
    have h1 : p.1 ∈ maskToVector o.c := mem_controls.1 ⟨p.2, hp⟩
    rw [mem_maskToVector] at h1 hq
    have := congrArg (fun m : U64 => m.getLsbD p.1) ho.disj
    simp only [BitVec.getLsbD_and, h1, hq] at this
    simp at this
  cases g with
  | ident => intro p hp; simp only [UGate.cs, controls, UGate.operands, maskToVector_zero] at hp; simp at hp
  | perm g =>
    intro p hp
    have := perm_targets hv.1 hv.2
    simp only [UGate.cs, UGate.operands, controls, this.2.1, maskToVector_zero] at hp
    simp at hp
  | globalPhase _ o => exact key o hv.1
  | one _ o => exact key o hv.1
  | swap o => exact key o hv.1
  | ecr g => exact key g.o hv.1
  | dense g => exact key g.o hv.1
  | sparse g => exact key g.o hv.1
  | pauli g => exact key g.o hv.1
  | pauliRot g _ => exact key g.o hv.1

theorem valid_targetsOK (g : UGate) : TargetsOK (UGate.ts g) := targetsOK_maskToVector _

theorem cos_sin_real {x : ℂ} (hx : x.im = 0) :
    (starRingEnd ℂ) (Complex.cos x) = Complex.cos x ∧ (starRingEnd ℂ) (Complex.sin x) = Complex.sin x := by
  obtain ⟨r, rfl⟩ : ∃ r : ℝ, x = r := ⟨x.re, by apply Complex.ext <;> simp [hx]⟩
  constructor
  · rw [← Complex.cos_conj, Complex.conj_ofReal]
  · rw [← Complex.sin_conj, Complex.conj_ofReal]

theorem ecr_length {g : EcrGate} (hv : Valid (.ecr g)) : (maskToVector g.o.t).length = 2 := by
  obtain ⟨ho, a, b, hab, ha, hb, ht⟩ := hv
  have hn : (maskToVector g.o.t).Perm [a, b] := by
    rw [List.perm_ext_iff_of_nodup (maskToVector_nodup _) (by simpa using hab)]
    intro q
    rw [mem_maskToVector, ht, BitVec.getLsbD_or, ha.2, hb.2]
    simp; tauto
  simpa using hn.length_eq

theorem unitary_valid {g : UGate} (hv : Valid g) (hu : UnitaryHyp g) {r s : Nat}
    (hr : r < 2 ^ (UGate.ts g).length) (hs : s < 2 ^ (UGate.ts g).length) :
    matMul (UGate.ts g).length (matDag (matOf g)) (matOf g) r s = matOne r s := by
  cases g with
  | ident =>
    exact (matMul_congr (U' := matOne) (V' := matOne) (fun r s _ _ => matOne_dag r s) (fun _ _ _ _ => rfl) hr hs).trans
      (matMul_one_left _ hr)
  | globalPhase phase o =>
    have e : UGate.ts (.globalPhase phase o) = [] := by
      show maskToVector o.t = []
      rw [hv.2]; exact maskToVector_zero
    rw [e] at hr hs ⊢
    simp only [List.length_nil, pow_zero, Nat.lt_one_iff] at hr hs
    subst hr; subst hs
    simp only [matMul, List.length_nil, pow_zero, Finset.range_one, Finset.sum_singleton, matDag, matOf, matOne]
    rw [conj_cis, cis_neg_mul]; simp
  | one k o =>
    obtain ⟨-, q, hq⟩ := hv
    have e : (UGate.ts (.one k o)).length = 1 := by show (maskToVector o.t).length = 1; rw [hq]; rfl
    rw [e] at hr hs ⊢
    exact gate1_unitary hu.1 hu.2 hr hs
  | swap o =>
    obtain ⟨-, a, b, hq⟩ := hv
    have e : (UGate.ts (.swap o)).length = 2 := by show (maskToVector o.t).length = 2; rw [hq]; rfl
    rw [e] at hr hs ⊢
    exact (matMul_congr (U' := swapMat) (V' := swapMat) (fun r s hr hs => swapMat_dag hr hs) (fun _ _ _ _ => rfl) hr hs).trans
      (swapMat_sq hr hs)
  | ecr g =>
    have e : (UGate.ts (.ecr g)).length = 2 := ecr_length hv
    rw [e] at hr hs ⊢
    rw [matMul_congr (U' := matOf (.ecr g)) (V' := matOf (.ecr g)) (fun r s hr hs => ecr_dag g hr hs) (fun _ _ _ _ => rfl) hr hs]
    exact ecr_sq g hr hs
  | perm g =>
    have e : UGate.ts (.perm g) = List.range g.dst.length := (perm_targets hv.1 hv.2).1
    rw [e, List.length_range] at hr hs ⊢
    obtain ⟨inv, g', h1, h2, h3, h4, h5⟩ := permInverse_ok hv.1 hv.2
    have hd := (permCtor_spec hv.1 hv.2).1
    have hk := hv.1
    exact (matMul_congr (U' := permMat inv) (V' := permMat g.dst) (fun r s _ _ => (permMat_dag hd h3 h5 r s).symm)
      (fun _ _ _ _ => rfl) hr hs).trans (permMat_inverse (by omega) hd h4 h3 h5 hr hs)
  | dense g => exact hu r s hr hs
  | sparse g => exact hu r s hr hs
  | pauli g =>
    have e : UGate.ts (.pauli g) = g.p.targetList := ts_pauli hv.2
    rw [e] at hr hs ⊢
    have hc : (starRingEnd ℂ) g.p.coef * g.p.coef = 1 := hu
    rw [matMul_congr (U' := fun r s => (starRingEnd ℂ) g.p.coef * pauliMat g.p r s)
      (V' := fun r s => g.p.coef * pauliMat g.p r s) ?_ (fun r s _ _ => show matOf (.pauli g) r s = _ from rfl) hr hs, matMul_scale, hc, one_mul,
      pauliMat_sq g.p hr hs]
    intro r s _ _
    simp only [matDag, matOf, map_mul, pauliMat_dag]
  | pauliRot g angle =>
    have e : UGate.ts (.pauliRot g angle) = g.p.targetList := ts_pauli hv.2
    rw [e] at hr hs ⊢
    have hc : g.p.coef.im = 0 := hu
    have hx : ((angle : ℂ) * g.p.coef / 2).im = 0 := by
      have : (angle : ℂ) * g.p.coef / 2 = (angle / 2 : ℝ) * g.p.coef := by push_cast; ring
      rw [this, Complex.im_ofReal_mul, hc, mul_zero]
    obtain ⟨h1, h2⟩ := cos_sin_real hx
    have h3 := Complex.sin_sq_add_cos_sq ((angle : ℂ) * g.p.coef / 2)
    generalize hX : (angle : ℂ) * g.p.coef / 2 = X at h1 h2 h3
    rw [matMul_congr (U' := fun r s => Complex.cos X * matOne r s + (Complex.I * Complex.sin X) * pauliMat g.p r s)
      (V' := fun r s => Complex.cos X * matOne r s + (-(Complex.I * Complex.sin X)) * pauliMat g.p r s) ?_ ?_ hr hs,
      matMul_affine _ _ _ _ (fun r s hr hs => pauliMat_sq g.p hr hs) hr hs]
    · linear_combination matOne r s * h3 - Complex.sin X ^ 2 * matOne r s * Complex.I_sq
    · intro r s _ _
      simp only [matDag, matOf, map_mul, map_sub, pauliMat_dag, matOne_dag, hX, h1, h2, Complex.conj_I]
      ring
    · intro r s _ _
      simp only [matOf, hX]
      ring

/-! ## Inverse -/

/-- what a user has to guarantee for the inverse: the unitarity flag of a dense matrix tells the truth and the
coefficient of a Pauli gate is a square root of one -/
def InverseHyp : UGate → Prop
  | .dense g => g.isUnitary = true → ∀ r s, r < 2 ^ (maskToVector g.o.t).length → s < 2 ^ (maskToVector g.o.t).length →
      matMul (maskToVector g.o.t).length (matDag g.mat.entry) g.mat.entry r s = matOne r s
  | .pauli g => g.p.coef * g.p.coef = 1
  | _ => True

theorem gate1Inverse_ne {k k' : Gate1} (h : gate1Inverse k = .ok k') : k ≠ .P0 ∧ k ≠ .P1 := by
  constructor <;> (rintro rfl; cases h)

theorem inverse_matrix {g g' : UGate} (hv : Valid g) (hi : InverseHyp g) (h : g.inverse = .ok g') :
    Valid g' ∧ UGate.ts g' = UGate.ts g ∧ UGate.cs g' = UGate.cs g ∧
    ∀ r s, r < 2 ^ (UGate.ts g).length → s < 2 ^ (UGate.ts g).length →
      matMul (UGate.ts g).length (matOf g') (matOf g) r s = matOne r s := by
  cases g with
  | ident =>
    obtain rfl := Except.ok.inj h
    exact ⟨hv, rfl, rfl, fun r s hr _ => matMul_one_left _ hr⟩
  | globalPhase phase o =>
    obtain rfl := Except.ok.inj h
    refine ⟨hv, rfl, rfl, ?_⟩
    have e : UGate.ts (.globalPhase phase o) = [] := by
      show maskToVector o.t = []
      rw [hv.2]; exact maskToVector_zero
    rw [e]
    intro r s hr hs
    simp only [List.length_nil, pow_zero, Nat.lt_one_iff] at hr hs
    subst hr; subst hs
    simp only [matMul, List.length_nil, pow_zero, Finset.range_one, Finset.sum_singleton, matOf, matOne]
    rw [cis_neg_mul]; simp
  | one k o =>
    obtain ⟨k', hk, h⟩ := bind_ok h
    obtain rfl := Except.ok.inj h
    refine ⟨hv, rfl, rfl, ?_⟩
    intro r s hr hs
    have hne := gate1Inverse_ne hk
    have := unitary_valid hv hne hr hs
    rw [← this]
    obtain ⟨-, q, hq⟩ := hv
    have e : (UGate.ts (.one k o)).length = 1 := by show (maskToVector o.t).length = 1; rw [hq]; rfl
    rw [e] at hr hs ⊢
    exact matMul_congr (fun r s hr hs => gate1_inverse_dag hk hr hs) (fun _ _ _ _ => rfl) hr hs
  | swap o =>
    obtain rfl := Except.ok.inj h
    refine ⟨hv, rfl, rfl, ?_⟩
    obtain ⟨-, a, b, hq⟩ := hv
    have e : (UGate.ts (.swap o)).length = 2 := by show (maskToVector o.t).length = 2; rw [hq]; rfl
    rw [e]
    intro r s hr hs
    exact swapMat_sq hr hs
  | ecr g =>
    obtain rfl := Except.ok.inj h
    refine ⟨hv, rfl, rfl, ?_⟩
    have e : (UGate.ts (.ecr g)).length = 2 := ecr_length hv
    rw [e]
    intro r s hr hs
    exact ecr_sq g hr hs
  | perm g =>
    obtain ⟨g', hg', h⟩ := bind_ok h
    obtain rfl := Except.ok.inj h
    have e : UGate.ts (.perm g) = List.range g.dst.length := (perm_targets hv.1 hv.2).1
    obtain ⟨inv, g'', h1, h2, h3, h4, h5⟩ := permInverse_ok hv.1 hv.2
    obtain rfl : g'' = g' := by rw [h1] at hg'; exact Except.ok.inj hg'
    have hd := (permCtor_spec hv.1 hv.2).1
    have hk := hv.1
    have hdst := (permCtor_spec (by omega) h2).2.1
    have hv' : Valid (.perm g'') := ⟨by rw [hdst]; omega, by rw [hdst]; exact h2⟩
    have e' : UGate.ts (.perm g'') = List.range g''.dst.length := (perm_targets hv'.1 hv'.2).1
    refine ⟨hv', by rw [e, e', hdst, h3], ?_, ?_⟩
    · have a := perm_targets hv.1 hv.2
      have b := perm_targets hv'.1 hv'.2
      simp only [UGate.cs, UGate.operands, controls, a.2.1, b.2.1, maskToVector_zero]
      rfl
    · rw [e, List.length_range]
      intro r s hr hs
      simp only [matOf]
      rw [hdst]
      exact permMat_inverse (by omega) hd h4 h3 h5 hr hs
  | dense g =>
    obtain ⟨g', hg', h⟩ := bind_ok h
    obtain rfl := Except.ok.inj h
    unfold denseInverse at hg'
    split at hg'
    · rename_i hf
      obtain rfl := Except.ok.inj hg'
      exact ⟨⟨hv.1, hv.2.2, hv.2.1⟩, rfl, rfl, hi hf⟩
    · cases hg'
  | sparse g => cases h
  | pauli g =>
    obtain rfl := Except.ok.inj h
    refine ⟨hv, rfl, rfl, ?_⟩
    have e : UGate.ts (.pauli g) = g.p.targetList := ts_pauli hv.2
    rw [e]
    intro r s hr hs
    have hc : g.p.coef * g.p.coef = 1 := hi
    simp only [matOf]
    rw [matMul_scale, hc, one_mul, pauliMat_sq g.p hr hs]
  | pauliRot g angle =>
    obtain rfl := Except.ok.inj h
    refine ⟨hv, rfl, rfl, ?_⟩
    have e : UGate.ts (.pauliRot g angle) = g.p.targetList := ts_pauli hv.2
    rw [e]
    intro r s hr hs
    have h3 := Complex.sin_sq_add_cos_sq ((angle : ℂ) * g.p.coef / 2)
    have hneg : (((-angle : ℝ) : ℂ) * g.p.coef / 2) = -((angle : ℂ) * g.p.coef / 2) := by push_cast; ring
    generalize hX : (angle : ℂ) * g.p.coef / 2 = X at h3 hneg
    rw [matMul_congr (U' := fun r s => Complex.cos X * matOne r s + (Complex.I * Complex.sin X) * pauliMat g.p r s)
      (V' := fun r s => Complex.cos X * matOne r s + (-(Complex.I * Complex.sin X)) * pauliMat g.p r s) ?_ ?_ hr hs,
      matMul_affine _ _ _ _ (fun r s hr hs => pauliMat_sq g.p hr hs) hr hs]
    · linear_combination matOne r s * h3 - Complex.sin X ^ 2 * matOne r s * Complex.I_sq
    · intro r s _ _
      simp only [matOf, hneg, Complex.cos_neg, Complex.sin_neg]
      ring
    · intro r s _ _
      simp only [matOf, hX]
      ring

/-- the inverse object undoes the object, in both orders -/
theorem inverse_valid {g g' : UGate} (hv : Valid g) (hi : InverseHyp g) (h : g.inverse = .ok g') (ψ : U64 → ℂ) :
    opOf g' (opOf g ψ) = ψ ∧ opOf g (opOf g' ψ) = ψ := by
  obtain ⟨-, ht, hc, hm⟩ := inverse_matrix hv hi h
  have hT := valid_targetsOK g
  have hD := valid_ctrlDisj hv
  unfold opOf
  rw [ht, hc]
  exact ⟨applyMat_inverse hT hD hm ψ, applyMat_inverse hT hD (fun r s hr hs => matMul_comm_one hm hr hs) ψ⟩

/-- unitary objects preserve the norm -/
theorem normSq_valid {g : UGate} (hv : Valid g) (hu : UnitaryHyp g) {n B : Nat} (hB : B * 2 ^ n ≤ 2 ^ 64)
    (ht : ∀ q ∈ UGate.ts g, q < n) (ψ : U64 → ℂ) : normSq (B * 2 ^ n) (opOf g ψ) = normSq (B * 2 ^ n) ψ :=
  normSq_applyMat hB (valid_targetsOK g) (valid_ctrlDisj hv) ht (fun _ _ hr hs => unitary_valid hv hu hr hs) ψ

end Verif.Proofs
