import Mathlib.Analysis.InnerProductSpace.Adjoint
import Mathlib.Analysis.InnerProductSpace.StarOrder
import Verif.Proofs.Trotter
import Verif.Proofs.Vec
import Verif.Proofs.PowerEnergy
import Verif.Spec.Exponential

/-! # Exponentials of sums of Pauli operators -/

namespace Verif.Proofs
open Verif Verif.Spec Verif.Model Verif.Props
attribute [-simp] BitVec.getLsbD_eq_getElem

section
variable {𝔸 : Type*} [NormedRing 𝔸] [NormedAlgebra ℂ 𝔸] [CompleteSpace 𝔸]

/-- the exponential of an involution -/
theorem exp_involution {T : 𝔸} (hT : T * T = 1) (z : ℂ) :
    NormedSpace.exp (z • T) = Complex.cosh z • (1 : 𝔸) + Complex.sinh z • T := by
  have key : ∀ (s : ℂ) (E : 𝔸), T * E = s • E → NormedSpace.exp (z • T) * E = Complex.exp (z * s) • E := by
    intro s E hE
    have hk : ∀ k : ℕ, (z • T) ^ k * E = (z * s) ^ k • E := by
      intro k
      induction k with
      | zero => simp
      | succ k ih =>
        rw [pow_succ, mul_assoc, smul_mul_assoc, hE, smul_smul, mul_smul_comm, ih, smul_smul, pow_succ]
        congr 1; ring
    have h1 := (NormedSpace.exp_series_hasSum_exp' (𝕂 := ℂ) (z • T)).mul_right E
    have h2 := (NormedSpace.exp_series_hasSum_exp' (𝕂 := ℂ) (z * s)).smul_const E
    rw [← Complex.exp_eq_exp_ℂ] at h2
    refine h1.unique (h2.congr_fun ?_)
    intro k
    rw [smul_mul_assoc, hk, smul_eq_mul, smul_smul]
  have h1 := key 1 (1 + T) (by rw [mul_add, mul_one, hT, one_smul, add_comm])
  have h2 := key (-1) (1 - T) (by rw [mul_sub, mul_one, hT, neg_smul, one_smul, neg_sub])
  have e : NormedSpace.exp (z • T) = (2⁻¹ : ℂ) • (NormedSpace.exp (z • T) * (1 + T) + NormedSpace.exp (z • T) * (1 - T)) := by
    rw [← mul_add, show (1 + T) + (1 - T) = (2 : ℂ) • (1 : 𝔸) by rw [two_smul]; abel, mul_smul_comm, smul_smul, mul_one]
    norm_num
  rw [e, h1, h2, Complex.cosh, Complex.sinh]
  simp only [mul_one, mul_neg]
  module

end

/-- the exponential series, applied to a vector -/
theorem exp_apply_hasSum {E : Type*} [NormedAddCommGroup E] [NormedSpace ℂ E] [CompleteSpace E] (A : E →L[ℂ] E) (z : ℂ) (v : E) :
    HasSum (fun k : ℕ => (z ^ k / (k.factorial : ℂ)) • (A ^ k) v) (NormedSpace.exp (z • A) v) := by
  have hser := NormedSpace.exp_series_hasSum_exp' (𝕂 := ℂ) (z • A)
  have h1 := (ContinuousLinearMap.apply ℂ E v).hasSum hser
  have e : (fun k : ℕ => (z ^ k / (k.factorial : ℂ)) • (A ^ k) v) =
      fun k : ℕ => ContinuousLinearMap.apply ℂ E v (((k.factorial : ℂ))⁻¹ • (z • A) ^ k) := by
    funext k
    rw [smul_pow, map_smul, map_smul, smul_smul, ContinuousLinearMap.apply_apply]
    congr 1
    ring
  rw [e]
  exact h1

theorem list_smul_sum {E : Type*} [AddCommGroup E] [Module ℂ E] (z : ℂ) (l : List E) : (l.map fun x => z • x).sum = z • l.sum := by
  induction l with
  | nil => simp
  | cons x l ih => rw [List.map_cons, List.sum_cons, List.sum_cons, ih, smul_add]

variable {n : Nat}

/-- the continuous linear map of a sum of Pauli operators -/
noncomputable def opC (n : Nat) (ts : List PauliOp) : Vect n →L[ℂ] Vect n := LinearMap.toContinuousLinearMap (opLin n ts)

theorem opC_apply (ts : List PauliOp) (x : Vect n) : opC n ts x = opLin n ts x := rfl

theorem vec_opC (hn : n ≤ 63) {ts : List PauliOp} (hx : ∀ p ∈ ts, p.x.toNat < 2 ^ n) (ψ : U64 → ℂ) :
    vec n (OpAct ts ψ) = opC n ts (vec n ψ) := vec_opAct hn hx ψ

theorem opC_ext (hn : n ≤ 63) {A B : Vect n →L[ℂ] Vect n} (h : ∀ ψ, A (vec n ψ) = B (vec n ψ)) : A = B := by
  ext1 x
  rw [← vec_unvec hn x]
  exact h _

theorem opC_nil (hn : n ≤ 63) : opC n [] = 0 := by
  apply opC_ext hn
  intro ψ
  rw [← vec_opC hn (by simp), show OpAct [] ψ = fun _ => 0 by funext j; simp [OpAct], vec_zero]
  rfl

theorem opC_cons (hn : n ≤ 63) {p : PauliOp} {ts : List PauliOp} (hx : ∀ q ∈ p :: ts, q.x.toNat < 2 ^ n) :
    opC n (p :: ts) = opC n [p] + opC n ts := by
  apply opC_ext hn
  intro ψ
  rw [ContinuousLinearMap.add_apply, ← vec_opC hn hx, ← vec_opC hn (fun q hq => hx q (by simp at hq; simp [hq])),
    ← vec_opC hn (fun q hq => hx q (List.mem_cons_of_mem _ hq)), ← vec_add]
  congr 1
  funext j
  simp [OpAct]

theorem opC_sum (hn : n ≤ 63) {ts : List PauliOp} (hx : ∀ q ∈ ts, q.x.toNat < 2 ^ n) : (ts.map fun p => opC n [p]).sum = opC n ts := by
  induction ts with
  | nil => rw [opC_nil hn]; rfl
  | cons p ts ih => rw [List.map_cons, List.sum_cons, ih (fun q hq => hx q (List.mem_cons_of_mem _ hq)), opC_cons hn hx]

theorem opC_one (p : PauliOp) (ψ : U64 → ℂ) : OpAct [p] ψ = PauliAct p ψ := by funext j; simp [OpAct]

/-- the coefficient in front of the string -/
theorem opC_coef (hn : n ≤ 63) {p : PauliOp} (hx : p.x.toNat < 2 ^ n) : opC n [p] = p.coef • opC n [⟨1, p.x, p.z⟩] := by
  apply opC_ext hn
  intro ψ
  rw [ContinuousLinearMap.smul_apply, ← vec_opC hn (by simpa using hx), ← vec_opC hn (by simpa using hx), ← vec_smul]
  congr 1
  rw [opC_one, opC_one]
  funext j
  simp [PauliAct]

theorem opC_unit_sq (hn : n ≤ 63) {x z : U64} (hx : x.toNat < 2 ^ n) : opC n [⟨1, x, z⟩] * opC n [⟨1, x, z⟩] = 1 := by
  apply opC_ext hn
  intro ψ
  have e : ∀ φ : U64 → ℂ, OpAct [⟨1, x, z⟩] φ = pauliAct x z φ := by intro φ; rw [opC_one]; funext j; simp [PauliAct]
  show opC n _ (opC n _ (vec n ψ)) = vec n ψ
  rw [← vec_opC hn (by simpa using hx), ← vec_opC hn (by simpa using hx), e, e, pauliAct_sq]

/-- the exponential of a Pauli operator is a rotation -/
theorem exp_pauli (hn : n ≤ 63) {p : PauliOp} (hx : p.x.toNat < 2 ^ n) (angle : ℂ) :
    NormedSpace.exp ((-(Complex.I * angle / 2)) • opC n [p]) =
      Complex.cos (angle * p.coef / 2) • (1 : Vect n →L[ℂ] Vect n) -
        (Complex.I * Complex.sin (angle * p.coef / 2)) • opC n [⟨1, p.x, p.z⟩] := by
  rw [opC_coef hn hx, smul_smul, exp_involution (opC_unit_sq hn hx),
    show -(Complex.I * angle / 2) * p.coef = -(angle * p.coef / 2 * Complex.I) by ring, Complex.cosh_neg, Complex.sinh_neg,
    Complex.cosh_mul_I, Complex.sinh_mul_I, neg_smul, ← sub_eq_add_neg, mul_comm Complex.I]

/-- the exponential series of the specification is the exponential of the linear map -/
theorem isExp_iff (hn : n ≤ 63) {ts : List PauliOp} (hx : ∀ q ∈ ts, q.x.toNat < 2 ^ n) (z : ℂ) (ψ φ : U64 → ℂ) :
    IsExp n z (sumOperator ts) ψ φ ↔ vec n φ = NormedSpace.exp (z • opC n ts) (vec n ψ) := by
  have hpow : ∀ k : ℕ, (opC n ts ^ k) (vec n ψ) = vec n ((sumOperator ts)^[k] ψ) := by
    intro k
    induction k with
    | zero => rfl
    | succ k ih =>
      rw [pow_succ', Function.iterate_succ_apply', sumOperator_fun, vec_opC hn hx, ← sumOperator_fun, ← ih]
      rfl
  have hterm : ∀ (i : Fin (2 ^ n)), HasSum (fun k : ℕ => z ^ k / (k.factorial : ℂ) * ((sumOperator ts)^[k] ψ) (BitVec.ofNat 64 i.val))
      (NormedSpace.exp (z • opC n ts) (vec n ψ) i) := by
    intro i
    have h2 := (EuclideanSpace.proj (𝕜 := ℂ) i).hasSum (exp_apply_hasSum (opC n ts) z (vec n ψ))
    have e : (fun k : ℕ => z ^ k / (k.factorial : ℂ) * ((sumOperator ts)^[k] ψ) (BitVec.ofNat 64 i.val)) =
        fun k : ℕ => EuclideanSpace.proj (𝕜 := ℂ) i ((z ^ k / (k.factorial : ℂ)) • (opC n ts ^ k) (vec n ψ)) := by
      funext k
      rw [hpow, map_smul, smul_eq_mul]
      rfl
    rw [e]
    exact h2
  have hidx : ∀ i : Fin (2 ^ n), (BitVec.ofNat 64 i.val).toNat = i.val := by
    intro i
    rw [BitVec.toNat_ofNat]
    exact Nat.mod_eq_of_lt (lt_of_lt_of_le i.isLt (Nat.pow_le_pow_right (by norm_num) (by omega)))
  constructor
  · intro h
    ext i
    rw [vec_apply]
    exact (h (BitVec.ofNat 64 i.val) (by rw [hidx]; exact i.isLt)).unique (hterm i)
  · intro h j hj
    have := hterm ⟨j.toNat, hj⟩
    rw [← h, vec_apply] at this
    simpa using this

theorem opC_selfAdjoint (hn : n ≤ 63) {ts : List PauliOp} (hx : ∀ p ∈ ts, p.x.toNat < 2 ^ n) (hc : ∀ p ∈ ts, p.coef.im = 0) :
    IsSelfAdjoint (opC n ts) := by
  rw [ContinuousLinearMap.isSelfAdjoint_iff_isSymmetric]
  exact opLin_symmetric hn hx hc

/-- the exponential of an imaginary multiple of a symmetric map is unitary -/
theorem exp_unitary {A : Vect n →L[ℂ] Vect n} (hA : IsSelfAdjoint A) (t : ℝ) :
    NormedSpace.exp ((-(Complex.I * t)) • A) ∈ unitary (Vect n →L[ℂ] Vect n) := by
  let _ : NormedAlgebra ℚ (Vect n →L[ℂ] Vect n) := NormedAlgebra.restrictScalars ℚ ℂ _
  apply NormedSpace.exp_mem_unitary_of_mem_skewAdjoint
  rw [skewAdjoint.mem_iff, star_smul, hA.star_eq]
  have : star (-(Complex.I * (t : ℂ))) = Complex.I * t := by simp
  rw [this]
  ext1 x
  simp

instance : Nontrivial (Vect n) := by
  have : Nonempty (Fin (2 ^ n)) := ⟨⟨0, by positivity⟩⟩
  unfold Vect
  infer_instance

theorem norm_unitary {U : Vect n →L[ℂ] Vect n} (h : U ∈ unitary (Vect n →L[ℂ] Vect n)) : ‖U‖ ≤ 1 :=
  (CStarRing.norm_of_mem_unitary h).le

theorem norm_opC_one (hn : n ≤ 63) {p : PauliOp} (hx : p.x.toNat < 2 ^ n) (hc : p.coef.im = 0) : ‖opC n [p]‖ ≤ |p.coef.re| := by
  apply ContinuousLinearMap.opNorm_le_bound _ (abs_nonneg _)
  intro x
  have := opLin_bound hn (ts := [p]) (by simpa using hx) (by simpa using hc) x
  rw [List.map_singleton, List.sum_singleton] at this
  exact this

/-- the terms of one step, latest first -/
noncomputable def stepList (n : Nat) (z : ℂ) (ts : List PauliOp) : List (Vect n →L[ℂ] Vect n) := ts.reverse.map fun p => z • opC n [p]

theorem stepList_sum (hn : n ≤ 63) {ts : List PauliOp} (hx : ∀ q ∈ ts, q.x.toNat < 2 ^ n) (z : ℂ) : (stepList n z ts).sum = z • opC n ts := by
  unfold stepList
  have : (ts.reverse.map fun p => z • opC n [p]) = (ts.reverse.map fun p => opC n [p]).map fun A => z • A := by
    rw [List.map_map]; rfl
  rw [this]
  refine (list_smul_sum z _).trans ?_
  rw [List.map_reverse, List.sum_reverse, opC_sum hn hx]

/-- a step is the product of the exponentials of the terms -/
noncomputable def stepC (n : Nat) (z : ℂ) (ts : List PauliOp) : Vect n →L[ℂ] Vect n := (((stepList n z ts)).map NormedSpace.exp).prod

theorem stepC_nil (z : ℂ) : stepC n z [] = 1 := rfl

theorem stepC_cons (z : ℂ) (p : PauliOp) (ts : List PauliOp) : stepC n z (p :: ts) = stepC n z ts * NormedSpace.exp (z • opC n [p]) := by
  simp [stepC, stepList]

theorem stepC_unitary (hn : n ≤ 63) {ts : List PauliOp} (hx : ∀ q ∈ ts, q.x.toNat < 2 ^ n) (hc : ∀ p ∈ ts, p.coef.im = 0) (t : ℝ) :
    stepC n (-(Complex.I * t)) ts ∈ unitary (Vect n →L[ℂ] Vect n) := by
  unfold stepC
  apply Submonoid.list_prod_mem
  intro A hA
  obtain ⟨B, hB, rfl⟩ := List.mem_map.1 hA
  obtain ⟨p, hp, rfl⟩ := List.mem_map.1 hB
  rw [List.mem_reverse] at hp
  exact exp_unitary (opC_selfAdjoint hn (by simpa using hx p hp) (by simpa using hc p hp)) t

theorem stepList_normSum (hn : n ≤ 63) {ts : List PauliOp} (hx : ∀ q ∈ ts, q.x.toNat < 2 ^ n) (hc : ∀ p ∈ ts, p.coef.im = 0) (z : ℂ) :
    normSum (stepList n z ts) ≤ ‖z‖ * (ts.map fun p => |p.coef.re|).sum := by
  unfold normSum stepList
  rw [List.map_map, List.map_reverse, List.sum_reverse, ← List.sum_map_mul_left]
  apply List.sum_le_sum
  intro p hp
  show ‖z • opC n [p]‖ ≤ _
  rw [norm_smul]
  exact mul_le_mul_of_nonneg_left (norm_opC_one hn (hx p hp) (hc p hp)) (norm_nonneg _)

/-- the error of `r` steps -/
theorem steps_bound (hn : n ≤ 63) {ts : List PauliOp} (hx : ∀ q ∈ ts, q.x.toNat < 2 ^ n) (hc : ∀ p ∈ ts, p.coef.im = 0) (t : ℝ)
    {r : ℕ} (hr : 0 < r) :
    ‖stepC n (-(Complex.I * ((t / r : ℝ) : ℂ))) ts ^ r - NormedSpace.exp ((-(Complex.I * t)) • opC n ts)‖ ≤
      2 * (|t| * (ts.map fun p => |p.coef.re|).sum) ^ 2 / r := by
  have hmap : (stepList n (-(Complex.I * t)) ts).map (fun A => (r : ℂ)⁻¹ • A) = stepList n (-(Complex.I * ((t / r : ℝ) : ℂ))) ts := by
    unfold stepList
    rw [List.map_map]
    apply List.map_congr_left
    intro p _
    show (r : ℂ)⁻¹ • (-(Complex.I * t)) • opC n [p] = _
    rw [smul_smul]
    congr 1
    push_cast
    ring
  have hP : expProd ((stepList n (-(Complex.I * t)) ts).map (fun A => (r : ℂ)⁻¹ • A)) = stepC n (-(Complex.I * ((t / r : ℝ) : ℂ))) ts := by
    rw [hmap]; rfl
  have hb := trotter_bound (stepList n (-(Complex.I * t)) ts) r hr (by rw [hP]; exact norm_unitary (stepC_unitary hn hx hc _)) (by
    rw [stepList_sum hn hx, smul_smul]
    have : (r : ℂ)⁻¹ * -(Complex.I * t) = -(Complex.I * ((t / r : ℝ) : ℂ)) := by push_cast; ring
    rw [this]
    exact norm_unitary (exp_unitary (opC_selfAdjoint hn hx hc) _))
  rw [hP, stepList_sum hn hx] at hb
  refine le_trans hb ?_
  have h1 := stepList_normSum hn hx hc (-(Complex.I * t))
  have h0 := normSum_nonneg (stepList n (-(Complex.I * t)) ts)
  have h2 : ‖-(Complex.I * (t : ℂ))‖ = |t| := by simp
  rw [h2] at h1
  have hr0 : (0 : ℝ) < r := by exact_mod_cast hr
  apply div_le_div_of_nonneg_right _ hr0.le
  nlinarith

/-- commuting terms: the steps are exact -/
theorem steps_exact (hn : n ≤ 63) {ts : List PauliOp} (hx : ∀ q ∈ ts, q.x.toNat < 2 ^ n)
    (hcomm : ts.Pairwise fun p q => Commute (opC n [p]) (opC n [q])) (z : ℂ) {r : ℕ} (hr : 0 < r) :
    stepC n (z / r) ts ^ r = NormedSpace.exp (z • opC n ts) := by
  have hp : (stepList n (z / r) ts).Pairwise Commute := by
    unfold stepList
    rw [List.pairwise_map, List.pairwise_reverse]
    exact hcomm.imp fun h => (h.symm.smul_left _).smul_right _
  let _ : NormedAlgebra ℚ (Vect n →L[ℂ] Vect n) := NormedAlgebra.restrictScalars ℚ ℂ _
  unfold stepC
  rw [expProd_commute _ hp, ← NormedSpace.exp_nsmul, stepList_sum hn hx, ← Nat.cast_smul_eq_nsmul ℂ, smul_smul,
    mul_div_cancel₀ _ (by exact_mod_cast hr.ne')]

end Verif.Proofs
