import Verif.Proofs.FloatOps
import Verif.Proofs.PauliAlg
import Verif.Proofs.GateUpdate

/-! # Rounding errors of the kernels on the whole state -/

namespace Verif.Proofs
open Verif Verif.Spec Verif.Model
attribute [-simp] BitVec.getLsbD_eq_getElem

/-! ## Indices -/

theorem and_not_clear {t j : U64} {q : Nat} (h : IsBit t q) (hj : j.getLsbD q = false) : j &&& ~~~t = j := by
  apply U64.ext; intro i hi
  rw [BitVec.getLsbD_and, BitVec.getLsbD_not, h.2]
  by_cases e : i = q
  · subst e; simp [hj]
  · simp [e, hi]

theorem and_not_set {t j : U64} {q : Nat} (h : IsBit t q) (hj : j.getLsbD q = true) : j &&& ~~~t = j ^^^ t := by
  apply U64.ext; intro i hi
  rw [BitVec.getLsbD_and, BitVec.getLsbD_not, BitVec.getLsbD_xor, h.2]
  by_cases e : i = q
  · subst e; simp [hj]
  · simp [e, hi]

theorem or_clear {t j : U64} {q : Nat} (h : IsBit t q) (hj : j.getLsbD q = false) : j ||| t = j ^^^ t := by
  apply U64.ext; intro i hi
  rw [BitVec.getLsbD_or, BitVec.getLsbD_xor, h.2]
  by_cases e : i = q
  · subst e; simp [hj]
  · simp [e]

theorem or_set {t j : U64} {q : Nat} (h : IsBit t q) (hj : j.getLsbD q = true) : j ||| t = j := by
  apply U64.ext; intro i hi
  rw [BitVec.getLsbD_or, h.2]
  by_cases e : i = q
  · subst e; simp [hj]
  · simp [e]

theorem xor_bit_other {t j : U64} {q p : Nat} (h : IsBit t q) (hne : p ≠ q) : (j ^^^ t).getLsbD p = j.getLsbD p := by
  rw [BitVec.getLsbD_xor, h.2]; simp [hne]

/-- a mask of qubits below `n` -/
theorem flipOK_bits {B n : Nat} {x : U64} (hsize : B * 2 ^ n ≤ 2 ^ 64) (hx : x.toNat < 2 ^ n) : FlipOK B n 0 0 x :=
  ⟨hsize, by simp, hx, by simp, by simp⟩

theorem masks_flip {B n : Nat} {t c v x : U64} (h : MasksOK B n t c v) (hx : ∀ i, x.getLsbD i = true → t.getLsbD i = true) :
    FlipOK B n 0 0 x := by
  refine flipOK_bits h.size ?_
  rw [toNat_lt_two_pow_iff]
  intro i hi
  have := (toNat_lt_two_pow_iff _ _).1 h.fits i hi
  rw [BitVec.getLsbD_or, Bool.or_eq_false_iff] at this
  by_contra hc
  rw [hx i (by simpa using hc)] at this
  cases this.1

/-! ## Norms -/

theorem normSq_nonneg' (dim : Nat) (ψ : U64 → ℂ) : 0 ≤ normSq dim ψ := Finset.sum_nonneg fun j _ => Complex.normSq_nonneg _

theorem normSq_norm (dim : Nat) (ψ : U64 → ℂ) : normSq dim ψ = ∑ j ∈ indices dim, ‖ψ j‖ ^ 2 :=
  Finset.sum_congr rfl fun j _ => Complex.normSq_eq_norm_sq _

theorem card_indices' {dim : Nat} : (indices dim).card ≤ dim := by
  unfold indices
  exact le_trans Finset.card_image_le (by simp)

/-- from the errors of the amplitudes to the error of the state, pairs -/
theorem drift_pair {B n : Nat} {x : U64} (hx : FlipOK B n 0 0 x) {d ψ : U64 → ℂ} {C D : ℝ}
    (h : ∀ j, InState (B * 2 ^ n) j → ‖d j‖ ≤ C * (‖ψ j‖ + ‖ψ (j ^^^ x)‖) + D) :
    normSq (B * 2 ^ n) d ≤ 6 * (C ^ 2 * normSq (B * 2 ^ n) ψ) + 3 * (D ^ 2 * ((B * 2 ^ n : Nat) : ℝ)) := by
  have h1 : ∀ j ∈ indices (B * 2 ^ n), ‖d j‖ ^ 2 ≤ 3 * C ^ 2 * ‖ψ j‖ ^ 2 + 3 * C ^ 2 * ‖ψ (j ^^^ x)‖ ^ 2 + 3 * D ^ 2 := by
    intro j hj
    rw [mem_indices hx.size] at hj
    have := pow_le_pow_left₀ (norm_nonneg _) (h j hj) 2
    refine le_trans this ?_
    nlinarith [sq_nonneg (C * ‖ψ j‖ - C * ‖ψ (j ^^^ x)‖), sq_nonneg (C * ‖ψ j‖ - D), sq_nonneg (C * ‖ψ (j ^^^ x)‖ - D)]
  have h2 := sum_xor hx (fun j => ‖ψ j‖ ^ 2)
  have h3 : (3 * D ^ 2) * ((indices (B * 2 ^ n)).card : ℝ) ≤ (3 * D ^ 2) * ((B * 2 ^ n : Nat) : ℝ) :=
    mul_le_mul_of_nonneg_left (by exact_mod_cast card_indices') (by positivity)
  rw [normSq_norm, normSq_norm]
  refine le_trans (Finset.sum_le_sum h1) ?_
  rw [Finset.sum_add_distrib, Finset.sum_add_distrib, ← Finset.mul_sum, ← Finset.mul_sum, Finset.sum_const, nsmul_eq_mul, h2]
  linarith

/-- from the errors of the amplitudes to the error of the state, quadruples -/
theorem drift_quad {B n : Nat} {x y : U64} (hx : FlipOK B n 0 0 x) (hy : FlipOK B n 0 0 y) {d ψ : U64 → ℂ} {C D : ℝ}
    (h : ∀ j, InState (B * 2 ^ n) j → ‖d j‖ ≤ C * (‖ψ j‖ + ‖ψ (j ^^^ x)‖ + ‖ψ (j ^^^ y)‖ + ‖ψ (j ^^^ x ^^^ y)‖) + D) :
    normSq (B * 2 ^ n) d ≤ 20 * (C ^ 2 * normSq (B * 2 ^ n) ψ) + 5 * (D ^ 2 * ((B * 2 ^ n : Nat) : ℝ)) := by
  have key : ∀ a b c d e : ℝ, (a + b + c + d + e) ^ 2 ≤ 5 * a ^ 2 + 5 * b ^ 2 + 5 * c ^ 2 + 5 * d ^ 2 + 5 * e ^ 2 := by
    intro a b c d e
    nlinarith [sq_nonneg (a - b), sq_nonneg (a - c), sq_nonneg (a - d), sq_nonneg (a - e), sq_nonneg (b - c), sq_nonneg (b - d),
      sq_nonneg (b - e), sq_nonneg (c - d), sq_nonneg (c - e), sq_nonneg (d - e)]
  have h1 : ∀ j ∈ indices (B * 2 ^ n), ‖d j‖ ^ 2 ≤ 5 * C ^ 2 * ‖ψ j‖ ^ 2 + 5 * C ^ 2 * ‖ψ (j ^^^ x)‖ ^ 2 +
      5 * C ^ 2 * ‖ψ (j ^^^ y)‖ ^ 2 + 5 * C ^ 2 * ‖ψ (j ^^^ x ^^^ y)‖ ^ 2 + 5 * D ^ 2 := by
    intro j hj
    rw [mem_indices hx.size] at hj
    have := pow_le_pow_left₀ (norm_nonneg _) (h j hj) 2
    refine le_trans this ?_
    have k := key (C * ‖ψ j‖) (C * ‖ψ (j ^^^ x)‖) (C * ‖ψ (j ^^^ y)‖) (C * ‖ψ (j ^^^ x ^^^ y)‖) D
    simp only [mul_pow] at k
    rw [show C * (‖ψ j‖ + ‖ψ (j ^^^ x)‖ + ‖ψ (j ^^^ y)‖ + ‖ψ (j ^^^ x ^^^ y)‖) + D =
      C * ‖ψ j‖ + C * ‖ψ (j ^^^ x)‖ + C * ‖ψ (j ^^^ y)‖ + C * ‖ψ (j ^^^ x ^^^ y)‖ + D by ring]
    linarith
  have h2 := sum_xor hx (fun j => ‖ψ j‖ ^ 2)
  have h3 := sum_xor hy (fun j => ‖ψ j‖ ^ 2)
  have h4 := (sum_xor hx (fun j => ‖ψ (j ^^^ y)‖ ^ 2)).trans h3
  have h5 : (5 * D ^ 2) * ((indices (B * 2 ^ n)).card : ℝ) ≤ (5 * D ^ 2) * ((B * 2 ^ n : Nat) : ℝ) :=
    mul_le_mul_of_nonneg_left (by exact_mod_cast card_indices') (by positivity)
  rw [normSq_norm, normSq_norm]
  refine le_trans (Finset.sum_le_sum h1) ?_
  simp only [Finset.sum_add_distrib, ← Finset.mul_sum, Finset.sum_const, nsmul_eq_mul]
  rw [h2, h3, h4]
  linarith

/-- the bound in terms of norms -/
theorem drift_sqrt {N E ε η K dim : ℝ} (hN : 0 ≤ N) (hdim : 0 ≤ dim) (hε : 0 ≤ ε) (hη : 0 ≤ η) (hK : 0 ≤ K)
    (h : E ≤ (K * ε) ^ 2 * N + (K * η) ^ 2 * dim) : √E ≤ K * (ε * √N + η * √dim) := by
  rw [Real.sqrt_le_left (by positivity)]
  have h1 := Real.sq_sqrt hN
  have h2 := Real.sq_sqrt hdim
  have h3 : 0 ≤ (K * ε * √N) * (K * η * √dim) := by positivity
  nlinarith

section
variable {F : Type} [Zero F] [One F] [Add F] [Sub F] [Mul F] [Neg F] {lib : FloatLib F} {val : F → ℝ} {u w η Ω ε : ℝ}
  {B n : Nat} {t c v : U64}

local notation "⟪" x "⟫" => cval val x

/-- the launches `d` compute what `d'` computes exactly, up to rounding errors -/
def CloseTo (dim : Nat) (val : F → ℝ) (ε η : ℝ) (d : Device (Cx F)) (d' : Device ℂ) : Prop :=
  ∀ m : U64 → Cx F, (∀ j, InState dim j → ‖cval val (m j)‖ ≤ 4) → ∃ m' m'', DRuns dim d m m' ∧
    DRuns dim d' (fun j => cval val (m j)) m'' ∧
    √(normSq dim (fun j => cval val (m' j) - m'' j)) ≤ 256 * (ε * √(normSq dim (fun j => cval val (m j))) + η * √(dim : ℝ))

omit [Zero F] [One F] [Add F] [Sub F] [Mul F] [Neg F] in
theorem closeTo_one (hε : 0 ≤ ε) (hη : 0 ≤ η) {q : Nat} (h : MasksOK B n t c v) (hq : IsBit t q) {d : Device (Cx F)} {d' : Device ℂ}
    {f0 f1 : Cx F → Cx F → Cx F} {g0 g1 : ℂ → ℂ → ℂ}
    (hd : ∀ m, DRuns (B * 2 ^ n) d m (oneOut B n q t c v f0 f1 m))
    (hd' : ∀ m, DRuns (B * 2 ^ n) d' m (oneOut B n q t c v g0 g1 m)) {C D : ℝ} (hC0 : 0 ≤ C) (hC : C ≤ 90 * ε) (hD0 : 0 ≤ D) (hD : D ≤ 25 * η)
    (h0 : ∀ a b, ‖⟪a⟫‖ ≤ 4 → ‖⟪b⟫‖ ≤ 4 → ‖⟪f0 a b⟫ - g0 ⟪a⟫ ⟪b⟫‖ ≤ C * (‖⟪a⟫‖ + ‖⟪b⟫‖) + D)
    (h1 : ∀ a b, ‖⟪a⟫‖ ≤ 4 → ‖⟪b⟫‖ ≤ 4 → ‖⟪f1 a b⟫ - g1 ⟪a⟫ ⟪b⟫‖ ≤ C * (‖⟪a⟫‖ + ‖⟪b⟫‖) + D) :
    CloseTo (B * 2 ^ n) val ε η d d' := by
  intro m hm
  refine ⟨_, _, hd m, hd' _, ?_⟩
  have hx := masks_flip h (x := t) (fun _ hi => hi)
  have key := drift_pair hx (d := fun j => ⟪oneOut B n q t c v f0 f1 m j⟫ - oneOut B n q t c v g0 g1 (fun j => ⟪m j⟫) j)
    (ψ := fun j => ⟪m j⟫) (C := C) (D := D) (by
      intro j hj
      have hj' := (hx.inState_xor j).2 hj
      unfold oneOut
      by_cases hc : InState (B * 2 ^ n) j ∧ j &&& c = v
      · simp only [if_pos hc]
        cases hb : j.getLsbD q with
        | false =>
          simp only [Bool.false_eq_true, if_false, or_clear hq hb]
          exact h0 _ _ (hm _ hj) (hm _ hj')
        | true =>
          simp only [if_true, and_not_set hq hb]
          rw [add_comm ‖⟪m j⟫‖]
          exact h1 _ _ (hm _ hj') (hm _ hj)
      · simp only [if_neg hc, sub_self, norm_zero]
        positivity)
  refine drift_sqrt (normSq_nonneg' _ _) (Nat.cast_nonneg _) hε hη (by norm_num) (le_trans key ?_)
  have e1 : C ^ 2 ≤ (90 * ε) ^ 2 := pow_le_pow_left₀ hC0 hC 2
  have e2 : D ^ 2 ≤ (25 * η) ^ 2 := pow_le_pow_left₀ hD0 hD 2
  have e3 := mul_le_mul_of_nonneg_right e1 (normSq_nonneg' (B * 2 ^ n) fun j => ⟪m j⟫)
  have e4 := mul_le_mul_of_nonneg_right e2 (Nat.cast_nonneg (α := ℝ) (B * 2 ^ n))
  have e5 := mul_nonneg (sq_nonneg ε) (normSq_nonneg' (B * 2 ^ n) fun j => ⟪m j⟫)
  have e6 := mul_nonneg (sq_nonneg η) (Nat.cast_nonneg (α := ℝ) (B * 2 ^ n))
  nlinarith

omit [Zero F] [One F] [Add F] [Sub F] [Mul F] [Neg F] in
theorem closeTo_pair (hε : 0 ≤ ε) (hη : 0 ≤ η) {x : U64} (hx : FlipOK B n c v x) {d : Device (Cx F)} {d' : Device ℂ}
    {f : U64 → Cx F → Cx F → Cx F} {g : U64 → ℂ → ℂ → ℂ}
    (hd : ∀ m, DRuns (B * 2 ^ n) d m (pairOut B n c v x f m))
    (hd' : ∀ m, DRuns (B * 2 ^ n) d' m (pairOut B n c v x g m)) {C D : ℝ} (hC0 : 0 ≤ C) (hC : C ≤ 90 * ε) (hD0 : 0 ≤ D) (hD : D ≤ 25 * η)
    (h0 : ∀ j a b, ‖⟪a⟫‖ ≤ 4 → ‖⟪b⟫‖ ≤ 4 → ‖⟪f j a b⟫ - g j ⟪a⟫ ⟪b⟫‖ ≤ C * (‖⟪a⟫‖ + ‖⟪b⟫‖) + D) :
    CloseTo (B * 2 ^ n) val ε η d d' := by
  intro m hm
  refine ⟨_, _, hd m, hd' _, ?_⟩
  have hx0 := flipOK_bits hx.size hx.xfits
  have key := drift_pair hx0 (d := fun j => ⟪pairOut B n c v x f m j⟫ - pairOut B n c v x g (fun j => ⟪m j⟫) j)
    (ψ := fun j => ⟪m j⟫) (C := C) (D := D) (by
      intro j hj
      have hj' := (hx.inState_xor j).2 hj
      unfold pairOut
      by_cases hc : InState (B * 2 ^ n) j ∧ j &&& c = v
      · simp only [if_pos hc]
        exact h0 _ _ _ (hm _ hj) (hm _ hj')
      · simp only [if_neg hc, sub_self, norm_zero]
        positivity)
  refine drift_sqrt (normSq_nonneg' _ _) (Nat.cast_nonneg _) hε hη (by norm_num) (le_trans key ?_)
  have e1 : C ^ 2 ≤ (90 * ε) ^ 2 := pow_le_pow_left₀ hC0 hC 2
  have e2 : D ^ 2 ≤ (25 * η) ^ 2 := pow_le_pow_left₀ hD0 hD 2
  have e3 := mul_le_mul_of_nonneg_right e1 (normSq_nonneg' (B * 2 ^ n) fun j => ⟪m j⟫)
  have e4 := mul_le_mul_of_nonneg_right e2 (Nat.cast_nonneg (α := ℝ) (B * 2 ^ n))
  have e5 := mul_nonneg (sq_nonneg ε) (normSq_nonneg' (B * 2 ^ n) fun j => ⟪m j⟫)
  have e6 := mul_nonneg (sq_nonneg η) (Nat.cast_nonneg (α := ℝ) (B * 2 ^ n))
  nlinarith

/-- the four amplitudes read by a kernel with two targets -/
theorem four_reads {q0 q1 : Nat} {t0 t1 : U64} (hq0 : IsBit t0 q0) (hq1 : IsBit t1 q1) (hne : q0 ≠ q1) (j : U64) (h : U64 → ℝ) :
    h (j &&& ~~~t0 &&& ~~~t1) + h ((j ||| t0) &&& ~~~t1) + h (j &&& ~~~t0 ||| t1) + h (j ||| t0 ||| t1) =
      h j + h (j ^^^ t0) + h (j ^^^ t1) + h (j ^^^ t0 ^^^ t1) := by
  have e0 : (j ^^^ t0).getLsbD q1 = j.getLsbD q1 := xor_bit_other hq0 (Ne.symm hne)
  cases b0 : j.getLsbD q0 <;> cases b1 : j.getLsbD q1 <;> rw [b1] at e0
  · rw [and_not_clear hq0 b0, or_clear hq0 b0, and_not_clear hq1 b1, and_not_clear hq1 e0, or_clear hq1 b1, or_clear hq1 e0]
  · rw [and_not_clear hq0 b0, or_clear hq0 b0, and_not_set hq1 b1, and_not_set hq1 e0, or_set hq1 b1, or_set hq1 e0]; ring
  · rw [and_not_set hq0 b0, or_set hq0 b0, and_not_clear hq1 e0, and_not_clear hq1 b1, or_clear hq1 e0, or_clear hq1 b1]; ring
  · rw [and_not_set hq0 b0, or_set hq0 b0, and_not_set hq1 e0, and_not_set hq1 b1, or_set hq1 e0, or_set hq1 b1]; ring

/-- they are in the state -/
theorem four_reads_in {q0 q1 : Nat} {t0 t1 : U64} (hq0 : IsBit t0 q0) (hq1 : IsBit t1 q1) (hne : q0 ≠ q1) (j : U64) (P : U64 → Prop)
    (h1 : P j) (h2 : P (j ^^^ t0)) (h3 : P (j ^^^ t1)) (h4 : P (j ^^^ t0 ^^^ t1)) :
    P (j &&& ~~~t0 &&& ~~~t1) ∧ P ((j ||| t0) &&& ~~~t1) ∧ P (j &&& ~~~t0 ||| t1) ∧ P (j ||| t0 ||| t1) := by
  have e0 : (j ^^^ t0).getLsbD q1 = j.getLsbD q1 := xor_bit_other hq0 (Ne.symm hne)
  cases b0 : j.getLsbD q0 <;> cases b1 : j.getLsbD q1 <;> rw [b1] at e0
  · rw [and_not_clear hq0 b0, or_clear hq0 b0, and_not_clear hq1 b1, and_not_clear hq1 e0, or_clear hq1 b1, or_clear hq1 e0]
    exact ⟨h1, h2, h3, h4⟩
  · rw [and_not_clear hq0 b0, or_clear hq0 b0, and_not_set hq1 b1, and_not_set hq1 e0, or_set hq1 b1, or_set hq1 e0]
    exact ⟨h3, h4, h1, h2⟩
  · rw [and_not_set hq0 b0, or_set hq0 b0, and_not_clear hq1 e0, and_not_clear hq1 b1, or_clear hq1 e0, or_clear hq1 b1]
    exact ⟨h2, h1, h4, h3⟩
  · rw [and_not_set hq0 b0, or_set hq0 b0, and_not_set hq1 e0, and_not_set hq1 b1, or_set hq1 e0, or_set hq1 b1]
    exact ⟨h4, h3, h2, h1⟩

omit [Zero F] [One F] [Add F] [Sub F] [Mul F] [Neg F] in
theorem closeTo_two (hε : 0 ≤ ε) (hη : 0 ≤ η) {q0 q1 : Nat} {t0 t1 : U64} (ht : t = t0 ||| t1) (h : MasksOK B n t c v)
    (hq0 : IsBit t0 q0) (hq1 : IsBit t1 q1) (hne : q0 ≠ q1) {d : Device (Cx F)} {d' : Device ℂ}
    {f : Bool → Bool → Cx F → Cx F → Cx F → Cx F → Cx F} {g : Bool → Bool → ℂ → ℂ → ℂ → ℂ → ℂ}
    (hd : ∀ m, DRuns (B * 2 ^ n) d m (twoOut B n q0 q1 t0 t1 c v f m))
    (hd' : ∀ m, DRuns (B * 2 ^ n) d' m (twoOut B n q0 q1 t0 t1 c v g m)) {C D : ℝ} (hC0 : 0 ≤ C) (hC : C ≤ 45 * ε) (hD0 : 0 ≤ D) (hD : D ≤ 25 * η)
    (h0 : ∀ x y a b c d, ‖⟪a⟫‖ ≤ 4 → ‖⟪b⟫‖ ≤ 4 → ‖⟪c⟫‖ ≤ 4 → ‖⟪d⟫‖ ≤ 4 →
      ‖⟪f x y a b c d⟫ - g x y ⟪a⟫ ⟪b⟫ ⟪c⟫ ⟪d⟫‖ ≤ C * (‖⟪a⟫‖ + ‖⟪b⟫‖ + ‖⟪c⟫‖ + ‖⟪d⟫‖) + D) :
    CloseTo (B * 2 ^ n) val ε η d d' := by
  intro m hm
  refine ⟨_, _, hd m, hd' _, ?_⟩
  have hx := masks_flip h (x := t0) (fun i hi => by rw [ht, BitVec.getLsbD_or, hi]; rfl)
  have hy := masks_flip h (x := t1) (fun i hi => by rw [ht, BitVec.getLsbD_or, hi, Bool.or_true])
  have key := drift_quad hx hy
    (d := fun j => ⟪twoOut B n q0 q1 t0 t1 c v f m j⟫ - twoOut B n q0 q1 t0 t1 c v g (fun j => ⟪m j⟫) j)
    (ψ := fun j => ⟪m j⟫) (C := C) (D := D) (by
      intro j hj
      have hj1 := (hx.inState_xor j).2 hj
      obtain ⟨r1, r2, r3, r4⟩ := four_reads_in hq0 hq1 hne j (InState (B * 2 ^ n)) hj hj1 ((hy.inState_xor j).2 hj) ((hy.inState_xor _).2 hj1)
      unfold twoOut
      by_cases hc : InState (B * 2 ^ n) j ∧ j &&& c = v
      · simp only [if_pos hc]
        rw [← four_reads hq0 hq1 hne j (fun j => ‖⟪m j⟫‖)]
        exact h0 _ _ _ _ _ _ (hm _ r1) (hm _ r2) (hm _ r3) (hm _ r4)
      · simp only [if_neg hc, sub_self, norm_zero]
        positivity)
  refine drift_sqrt (normSq_nonneg' _ _) (Nat.cast_nonneg _) hε hη (by norm_num) (le_trans key ?_)
  have e1 : C ^ 2 ≤ (45 * ε) ^ 2 := pow_le_pow_left₀ hC0 hC 2
  have e2 : D ^ 2 ≤ (25 * η) ^ 2 := pow_le_pow_left₀ hD0 hD 2
  have e3 := mul_le_mul_of_nonneg_right e1 (normSq_nonneg' (B * 2 ^ n) fun j => ⟪m j⟫)
  have e4 := mul_le_mul_of_nonneg_right e2 (Nat.cast_nonneg (α := ℝ) (B * 2 ^ n))
  have e5 := mul_nonneg (sq_nonneg ε) (normSq_nonneg' (B * 2 ^ n) fun j => ⟪m j⟫)
  have e6 := mul_nonneg (sq_nonneg η) (Nat.cast_nonneg (α := ℝ) (B * 2 ^ n))
  nlinarith

omit [Zero F] [One F] [Add F] [Sub F] [Mul F] [Neg F] in
/-- no arithmetic, no error -/
theorem closeTo_exact {dim : Nat} (hε : 0 ≤ ε) (hη : 0 ≤ η) {d : Device (Cx F)} {d' : Device ℂ}
    (h : ∀ m : U64 → Cx F, ∃ m', DRuns dim d m m' ∧ DRuns dim d' (fun j => ⟪m j⟫) (fun j => ⟪m' j⟫)) : CloseTo dim val ε η d d' := by
  intro m hm
  obtain ⟨m', h1, h2⟩ := h m
  refine ⟨m', _, h1, h2, ?_⟩
  have : normSq dim (fun j => ⟪m' j⟫ - ⟪m' j⟫) = 0 := by
    unfold normSq
    exact Finset.sum_eq_zero fun j _ => by simp
  rw [this, Real.sqrt_zero]
  positivity

end

end Verif.Proofs
