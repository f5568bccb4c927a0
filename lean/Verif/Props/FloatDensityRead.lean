import Verif.Proofs.FloatDensityRead
import Verif.Props.FloatDensity
import Verif.Props.Reductions

/-! # C96: reading density matrices in floating-point arithmetic

`TraceF`, `ZeroProbabilityMF`, `MarginalProbabilityMF`, `PurityF` and `PartialTraceF` (`Model/FloatDensityRead.lean`) allow every
outcome of the reductions: any order of the additions, any partial sums.  The specification is the sum of the elements as complex
numbers.
-/

namespace Verif.Props
open Verif Verif.Spec Verif.Model Verif.Proofs
open scoped ComplexConjugate
attribute [-simp] BitVec.getLsbD_eq_getElem

section
variable {F : Type} [_root_.Zero F] [One F] [Add F] [Sub F] [Mul F] [Neg F] {lib : FloatLib F} {val : F → ℝ} {u w η Ω ε : ℝ}

/-! ## the matrix given -/

theorem traceF_sums {n : Nat} (hn : n ≤ 63) (ρ : U64 × U64 → ℂ) :
    reduceSum (2 ^ n) (fun i => readM (2 ^ n) ρ (i, i)) = .ok (∑ j ∈ indices (2 ^ n), ρ (j, j)) := by
  have := trace_eq (d := ⟨n, false, ρ⟩) (by dsimp only; omega)
  dsimp only at this
  rw [traceOf_indices (by omega)] at this
  exact this

/-- **C96, trace.** `get_trace` is the trace up to `((1 + u) ^ dim - 1) Σ |ρ_jj|` in each part. -/
theorem C96_trace (A : Accurate lib val u w η Ω) (Z : AddZero val Ω) {n : Nat} (hn : n ≤ 63) {M : U64 × U64 → Cx F} {D : ℝ}
    (hD : D = ∑ j ∈ indices (2 ^ n), ‖cval val (M (j, j))‖) (hΩ : (1 + u) ^ 2 ^ n * D ≤ Ω) :
    WithinC val (TraceF n M) (traceOf (2 ^ n) fun p => cval val (M p)) (((1 + u) ^ 2 ^ n - 1) * D) := by
  have h1 := traceF_sums hn fun p => cval val (M p)
  have h2 := traceF_sums hn fun p => ((‖cval val (M p)‖ : ℝ) : ℂ)
  rw [← Complex.ofReal_sum, ← hD] at h2
  rw [traceOf_indices (by omega)]
  obtain ⟨⟨s, hs⟩, h3⟩ := cells_reduction A Z h1 h2 hΩ
  exact ⟨⟨_, hs⟩, h3⟩

theorem cond_le {n : Nat} (c : U64 → Prop) [DecidablePred c] (M : U64 × U64 → Cx F) :
    (∑ j ∈ indices (2 ^ n), if c j then |(cval val (M (j, j))).re| else 0) ≤ ∑ j ∈ indices (2 ^ n), |(cval val (M (j, j))).re| :=
  Finset.sum_le_sum fun j _ => by split <;> simp

/-- **C96, one qubit.** `get_zero_probability(q)` of a matrix flagged Hermitian is the sum of the diagonal elements with bit `q` zero up to
`((1 + u) ^ dim - 1) D`, `D` the sum of the magnitudes of the diagonal; other qubits and matrices without flag throw. -/
theorem C96_zero_probability (A : Accurate lib val u w η Ω) (Z : AddZero val Ω) {n q : Nat} (hn : n ≤ 63) {b : Bool} {M : U64 × U64 → Cx F}
    {D : ℝ} (hD : D = ∑ j ∈ indices (2 ^ n), |(cval val (M (j, j))).re|) (hΩ : (1 + u) ^ 2 ^ n * D ≤ Ω) :
    (q < n ∧ b = true → Within val (ZeroProbabilityMF n b M q)
      (∑ j ∈ indices (2 ^ n), if j.getLsbD q = false then (cval val (M (j, j))).re else 0) (((1 + u) ^ 2 ^ n - 1) * D)) ∧
    (¬ (q < n ∧ b = true) → ∃ e, ∀ r, ZeroProbabilityMF (F := F) n b M q r ↔ r = .error (.throw e)) := by
  constructor
  · rintro ⟨hq, rfl⟩
    have h1 := zeroSumM (d := ⟨n, true, fun p => cval val (M p)⟩) hn hq
    have h2 := zeroSumM (d := ⟨n, true, fun p => ((|(cval val (M p)).re| : ℝ) : ℂ)⟩) hn hq
    simp only [Complex.ofReal_re] at h2
    have h3 := diag_reduction A Z (K := 2 ^ n) (by rw [Nat.shiftRight_eq_div_pow]; exact Nat.div_le_self _ _) h1 h2
      ((cond_le (fun j => j.getLsbD q = false) M).trans hD.ge) hΩ
    unfold ZeroProbabilityMF
    simp only [if_neg (show ¬ q ≥ n by omega), if_neg (show ¬ (true = false) by simp)]
    exact h3
  · intro h
    unfold ZeroProbabilityMF
    by_cases hq : q ≥ n
    · simp only [if_pos hq]; exact ⟨_, fun _ => Iff.rfl⟩
    · have hb : b = false := by
        cases b
        · rfl
        · exact (h ⟨by omega, rfl⟩).elim
      simp only [if_neg hq, if_pos hb]; exact ⟨_, fun _ => Iff.rfl⟩

open Classical in
/-- **C96, patterns.** `get_marginal_probability` of a matrix flagged Hermitian is the sum of the diagonal elements that agree with the
pattern up to `((1 + u) ^ dim - 1) D`; patterns of another length or with other values, and matrices without flag, throw. -/
theorem C96_marginal_probability (A : Accurate lib val u w η Ω) (Z : AddZero val Ω) {n : Nat} (hn : n ≤ 63) {b : Bool} {M : U64 × U64 → Cx F}
    (pattern : List Nat) {D : ℝ} (hD : D = ∑ j ∈ indices (2 ^ n), |(cval val (M (j, j))).re|) (hΩ : (1 + u) ^ 2 ^ n * D ≤ Ω) :
    (pattern.length = n ∧ b = true ∧ (∀ v ∈ pattern, v ≤ 2) → Within val (MarginalProbabilityMF n b M pattern)
      (∑ j ∈ indices (2 ^ n), if Matches pattern j then (cval val (M (j, j))).re else 0) (((1 + u) ^ 2 ^ n - 1) * D)) ∧
    (¬ (pattern.length = n ∧ b = true ∧ ∀ v ∈ pattern, v ≤ 2) →
      ∃ e, ∀ r, MarginalProbabilityMF (F := F) n b M pattern r ↔ r = .error (.throw e)) := by
  constructor
  · rintro ⟨hl, rfl, hv⟩
    have h1 := marginalSumM (d := ⟨n, true, fun p => cval val (M p)⟩) hn hl
    have h2 := marginalSumM (d := ⟨n, true, fun p => ((|(cval val (M p)).re| : ℝ) : ℂ)⟩) hn hl
    simp only [Complex.ofReal_re] at h2
    have h3 := diag_reduction A Z (K := 2 ^ n) (by rw [Nat.shiftRight_eq_div_pow]; exact Nat.div_le_self _ _) h1 h2
      ((cond_le (Matches pattern) M).trans hD.ge) hΩ
    unfold MarginalProbabilityMF
    simp only [if_neg (show ¬ pattern.length ≠ n by omega), if_neg (show ¬ (true = false) by simp), measuredTargets_ok 0 pattern hv,
      List.length_map]
    exact h3
  · intro h
    unfold MarginalProbabilityMF
    by_cases hl : pattern.length ≠ n
    · simp only [if_pos hl]; exact ⟨_, fun _ => Iff.rfl⟩
    · by_cases hb : b = false
      · simp only [if_neg hl, if_pos hb]; exact ⟨_, fun _ => Iff.rfl⟩
      · obtain ⟨e, he⟩ := measuredTargets_bad 0 pattern (by
          by_contra hc
          exact h ⟨by omega, by simpa using hb, fun v h => by by_contra h2; exact hc ⟨v, h, by omega⟩⟩)
        simp only [if_neg hl, if_neg hb, he]
        exact ⟨_, fun _ => Iff.rfl⟩

/-- **C96, purity.** `get_purity` of a matrix flagged Hermitian with elements of magnitude at most 4 is the sum `P` of the squared magnitudes of
all elements up to `sumErr u η dim² P`; a matrix without flag throws. -/
theorem C96_purity (A : Accurate lib val u w η Ω) (Z : AddZero val Ω) (hu : u ≤ 1 / 64) (hη : η ≤ 1 / 64) {n : Nat} (hn : n < 64)
    {M : U64 × U64 → Cx F} (hm : ∀ p, CellOf n p → ‖cval val (M p)‖ ≤ 4) {P : ℝ} (hP : P = frob (2 ^ n) (fun p => cval val (M p)) ^ 2)
    (hΩ : ((1 : ℝ) + u) ^ (4 ^ n + 2) * (P + 2 * ((4 ^ n : ℕ) : ℝ) * η) ≤ Ω) :
    Within val (PurityF n true M) P (sumErr u η (4 ^ n) P) ∧
    ∃ e, ∀ r, PurityF (F := F) n false M r ↔ r = .error (.throw e) := by
  refine ⟨purity_reduction A Z hu hη hn (fun p h1 h2 => hm p ⟨h1, h2⟩) hP hΩ, ?_⟩
  unfold PurityF
  simp only [if_true]
  exact ⟨_, fun _ => Iff.rfl⟩

/-- **C96, partial trace.** `get_partial_trace(qs)` of distinct qubits of the register, fewer than 16 left: every outcome has
`n - |qs|` qubits, and each part of element `p` is the one of the partial trace up to `((1 + u) ^ 2^|qs| - 1)` times the sum of the
magnitudes of the elements added.  A repeated qubit or one outside the register throws. -/
theorem C96_partial_trace (A : Accurate lib val u w η Ω) (Z : AddZero val Ω) {n : Nat} (hn : n < 32) {qs : List Nat}
    {M : U64 × U64 → Cx F} {D : U64 × U64 → ℝ}
    (hD : ∀ p, D p = ∑ x ∈ Finset.range (2 ^ qs.length), ‖cval val (M (jointIndex n qs p.1.toNat x, jointIndex n qs p.2.toNat x))‖)
    (hΩ : ∀ p, CellOf (n - qs.length) p → (1 + u) ^ 2 ^ qs.length * D p ≤ Ω) :
    (qs ≠ [] ∧ qs.Nodup ∧ (∀ q ∈ qs, q < n) ∧ n - qs.length < 16 →
      (∃ r, PartialTraceF n M qs r) ∧ ∀ r, PartialTraceF n M qs r → ∃ M', r = .ok (n - qs.length, M') ∧ ∀ p, CellOf (n - qs.length) p →
        |val (M' p).re - (partialTraceOf n qs (fun p => cval val (M p)) p).re| ≤ ((1 + u) ^ 2 ^ qs.length - 1) * D p ∧
        |val (M' p).im - (partialTraceOf n qs (fun p => cval val (M p)) p).im| ≤ ((1 + u) ^ 2 ^ qs.length - 1) * D p) ∧
    (qs = [] → (∃ r, PartialTraceF n M qs r) ∧
      ∀ r, PartialTraceF n M qs r → ∃ M', r = .ok (n, M') ∧ ∀ p, CellOf n p → M' p = M p) ∧
    (¬ (qs.Nodup ∧ ∀ q ∈ qs, q < n) → ∃ e, ∀ r, PartialTraceF n M qs r ↔ r = .error (.throw e)) := by
  have hDp : ∀ p, (partialTraceOf n qs (fun p => ((‖cval val (M p)‖ : ℝ) : ℂ)) p).re = D p := by
    intro p
    rw [hD]
    unfold partialTraceOf
    rw [Complex.re_sum]
    exact Finset.sum_congr rfl fun x _ => Complex.ofReal_re _
  refine ⟨?_, ?_, ?_⟩
  · rintro ⟨hne, hnd, hq, h16⟩
    have hlt : ∀ x : Nat, x < 2 ^ (n - qs.length) → (BitVec.ofNat 64 x).toNat = x := fun x hx =>
      Verif.toNat_ofNat_lt (lt_of_lt_of_le hx (Nat.pow_le_pow_right (by norm_num) (by omega)))
    obtain ⟨h1, h2⟩ := partialTraceF_close A Z hn hne hnd hq h16 (raw := M) fun i j hi hj => by
      rw [hDp]
      exact hΩ _ ⟨by dsimp only; rw [hlt i hi]; exact hi, by dsimp only; rw [hlt j hj]; exact hj⟩
    refine ⟨h1, fun r hr => ?_⟩
    obtain ⟨M', hM, h3⟩ := h2 r hr
    refine ⟨M', hM, fun p hp => ?_⟩
    have h4 := h3 p.1.toNat p.2.toNat hp.1 hp.2
    rw [hDp, BitVec.ofNat_toNat, BitVec.ofNat_toNat, BitVec.setWidth_eq, BitVec.setWidth_eq] at h4
    exact h4
  · rintro rfl
    unfold PartialTraceF
    simp only [if_true]
    exact ⟨⟨_, M, fun _ _ => rfl, rfl⟩, fun r ⟨M', h1, h2⟩ => ⟨M', h2, fun p hp => h1 p hp⟩⟩
  · intro h
    have hne : qs ≠ [] := by rintro rfl; exact h ⟨List.nodup_nil, by simp⟩
    unfold PartialTraceF
    by_cases hq : ∃ q ∈ qs, q ≥ n
    · simp only [if_neg hne, if_pos hq]; exact ⟨_, fun _ => Iff.rfl⟩
    · cases hm : vectorToMask qs with
      | error e =>
        obtain ⟨msg, rfl⟩ := vectorToMask_throws hm
        simp only [if_neg hne, if_neg hq]
        exact ⟨msg, fun _ => Iff.rfl⟩
      | ok mask =>
        push Not at hq
        exact (h ⟨((vectorToMask_ok_iff qs).1 ⟨mask, hm⟩).1, hq⟩).elim

/-! ## the matrix computed by gates -/

theorem diag_le_frob {n : Nat} (hn : n ≤ 63) (M : U64 × U64 → ℂ) : ∑ j ∈ indices (2 ^ n), ‖M (j, j)‖ ≤ √(2 ^ n) * frob (2 ^ n) M := by
  have h := trace_le_frob hn fun p => ((‖M p‖ : ℝ) : ℂ)
  rw [traceOf_indices (by omega), ← Complex.ofReal_sum, Complex.norm_real] at h
  refine (le_abs_self _).trans (h.trans (le_of_eq ?_))
  unfold frob
  simp only [Complex.norm_real, norm_norm]

/-- the facts about the matrix after some gates -/
theorem computed_density (A : Accurate lib val u w η Ω) (hε : u + η + w ≤ ε) {n : Nat} (hn : n < 32) {E : ℝ}
    (hE : E = 8192 * (2 * ε + η * 2 ^ n)) {ds : List GateDesc} {gs : List UGate}
    (hb : List.Forall₂ (fun d g => GateDesc.build d = .ok g) ds gs) (hd : ∀ d ∈ ds, BoundedDM u w η ε n d)
    (hk : ds.length * E ≤ 1) {M M' : U64 × U64 → Cx F} (hM : frob (2 ^ n) (fun p => cval val (M p)) ≤ 1)
    (h : GatesRunDMF lib n gs M M') :
    frob (2 ^ n) (fun p => cval val (M' p) - exactDensity (2 ^ n) ds (fun p => cval val (M p)) p) ≤ ds.length * E ∧
    frob (2 ^ n) (exactDensity (2 ^ n) ds fun p => cval val (M p)) ≤ 1 ∧ frob (2 ^ n) (fun p => cval val (M' p)) ≤ 2 := by
  obtain ⟨M₁, -, h2, h3⟩ := C95_sequence A hε hn hE hb hd hk M hM
  rw [← h2 M' h] at h3
  have h4 : frob (2 ^ n) (exactDensity (2 ^ n) ds fun p => cval val (M p)) ≤ 1 := by
    clear h3 h2 h hk
    generalize (fun p => cval val (M p)) = ρ at hM
    induction hb generalizing ρ with
    | nil => exact hM
    | @cons d g ds gs hg hgs ih =>
      have hd1 := hd d List.mem_cons_self
      obtain ⟨-, -, -, -, -, hcon⟩ := standard_facts hn hd1.standard hg hd1.qubits
      exact ih (fun d h => hd d (List.mem_cons_of_mem _ h)) _ ((hcon ρ).trans hM)
  refine ⟨h3, h4, ?_⟩
  have := frob_add n (fun p => cval val (M' p) - exactDensity (2 ^ n) ds (fun p => cval val (M p)) p)
    (exactDensity (2 ^ n) ds fun p => cval val (M p))
  simp only [sub_add_cancel] at this
  linarith

/-- **C96, gates then trace.** After `k` unitary gates on a matrix of Frobenius norm at most one, `get_trace` is, in each part, within
`√dim (k E + 2 ((1 + u) ^ dim - 1))` of the trace before. -/
theorem C96_gates_trace (A : Accurate lib val u w η Ω) (Z : AddZero val Ω) (hε : u + η + w ≤ ε) {n : Nat} (hn : n < 32) {E : ℝ}
    (hE : E = 8192 * (2 * ε + η * 2 ^ n)) {ds : List GateDesc} {gs : List UGate}
    (hb : List.Forall₂ (fun d g => GateDesc.build d = .ok g) ds gs) (hd : ∀ d ∈ ds, BoundedDM u w η ε n d)
    (hu : ∀ d ∈ ds, UnitaryDesc d) (hk : ds.length * E ≤ 1) {M M' : U64 × U64 → Cx F}
    (hM : frob (2 ^ n) (fun p => cval val (M p)) ≤ 1) (h : GatesRunDMF lib n gs M M') (hΩ : (1 + u) ^ 2 ^ n * (√(2 ^ n) * 2) ≤ Ω) :
    WithinC val (TraceF n M') (traceOf (2 ^ n) fun p => cval val (M p)) (√(2 ^ n) * (ds.length * E + 2 * ((1 + u) ^ 2 ^ n - 1))) := by
  have hu0 := A.u_nonneg
  obtain ⟨-, -, h3⟩ := computed_density A hε hn hE hb hd hk hM h
  have h4 := C95_trace A hε hn hE hb hd hu hk hM h
  have h5 : ∑ j ∈ indices (2 ^ n), ‖cval val (M' (j, j))‖ ≤ √(2 ^ n) * 2 :=
    (diag_le_frob (by omega) fun p => cval val (M' p)).trans (mul_le_mul_of_nonneg_left h3 (Real.sqrt_nonneg _))
  have hpow : 1 ≤ (1 + u) ^ 2 ^ n := one_le_pow₀ (by linarith)
  obtain ⟨he, hall⟩ := C96_trace A Z (by omega) (M := M') rfl ((mul_le_mul_of_nonneg_left h5 (by linarith)).trans hΩ)
  refine ⟨he, fun r hr => ?_⟩
  obtain ⟨s, hs, hre, him⟩ := hall r hr
  have h6 := mul_le_mul_of_nonneg_left h5 (show 0 ≤ (1 + u) ^ 2 ^ n - 1 by linarith)
  have h7 := (Complex.abs_re_le_norm _).trans h4
  have h8 := (Complex.abs_im_le_norm _).trans h4
  rw [Complex.sub_re] at h7
  rw [Complex.sub_im] at h8
  refine ⟨s, hs, ?_, ?_⟩
  · have := abs_sub_le (val s.re) (traceOf (2 ^ n) fun p => cval val (M' p)).re (traceOf (2 ^ n) fun p => cval val (M p)).re
    linarith
  · have := abs_sub_le (val s.im) (traceOf (2 ^ n) fun p => cval val (M' p)).im (traceOf (2 ^ n) fun p => cval val (M p)).im
    linarith

open Classical in
/-- **C96, gates then probabilities.** After `k` gates on a matrix of Frobenius norm at most one, every outcome of
`get_marginal_probability` is within `√dim (k E + 2 ((1 + u) ^ dim - 1))` of the probability of the pattern after the exact gates. -/
theorem C96_gates_probability (A : Accurate lib val u w η Ω) (Z : AddZero val Ω) (hε : u + η + w ≤ ε) {n : Nat} (hn : n < 32) {E : ℝ}
    (hE : E = 8192 * (2 * ε + η * 2 ^ n)) {ds : List GateDesc} {gs : List UGate}
    (hb : List.Forall₂ (fun d g => GateDesc.build d = .ok g) ds gs) (hd : ∀ d ∈ ds, BoundedDM u w η ε n d)
    (hk : ds.length * E ≤ 1) {M M' : U64 × U64 → Cx F} (hM : frob (2 ^ n) (fun p => cval val (M p)) ≤ 1)
    (h : GatesRunDMF lib n gs M M') (hΩ : (1 + u) ^ 2 ^ n * (√(2 ^ n) * 2) ≤ Ω) {pattern : List Nat}
    (hp : pattern.length = n ∧ ∀ v ∈ pattern, v ≤ 2) :
    Within val (MarginalProbabilityMF n true M' pattern)
      (∑ j ∈ indices (2 ^ n), if Matches pattern j then (exactDensity (2 ^ n) ds (fun p => cval val (M p)) (j, j)).re else 0)
      (√(2 ^ n) * (ds.length * E + 2 * ((1 + u) ^ 2 ^ n - 1))) := by
  have hu0 := A.u_nonneg
  obtain ⟨h1, -, h3⟩ := computed_density A hε hn hE hb hd hk hM h
  have h5 : ∑ j ∈ indices (2 ^ n), |(cval val (M' (j, j))).re| ≤ √(2 ^ n) * 2 :=
    (Finset.sum_le_sum fun j _ => Complex.abs_re_le_norm _).trans
      ((diag_le_frob (by omega) fun p => cval val (M' p)).trans (mul_le_mul_of_nonneg_left h3 (Real.sqrt_nonneg _)))
  have hpow : 1 ≤ (1 + u) ^ 2 ^ n := one_le_pow₀ (by linarith)
  obtain ⟨he, hall⟩ := (C96_marginal_probability A Z (by omega) (b := true) (M := M') pattern rfl
    ((mul_le_mul_of_nonneg_left h5 (by linarith)).trans hΩ)).1 ⟨hp.1, rfl, hp.2⟩
  refine ⟨he, fun r hr => ?_⟩
  obtain ⟨s, hs, hv⟩ := hall r hr
  refine ⟨s, hs, ?_⟩
  have h6 := mul_le_mul_of_nonneg_left h5 (show 0 ≤ (1 + u) ^ 2 ^ n - 1 by linarith)
  have h7 : |(∑ j ∈ indices (2 ^ n), if Matches pattern j then (cval val (M' (j, j))).re else 0) -
      ∑ j ∈ indices (2 ^ n), if Matches pattern j then (exactDensity (2 ^ n) ds (fun p => cval val (M p)) (j, j)).re else 0| ≤
      √(2 ^ n) * (ds.length * E) := by
    rw [← Finset.sum_sub_distrib]
    refine (Finset.abs_sum_le_sum_abs _ _).trans (le_trans (Finset.sum_le_sum fun j _ => ?_)
      ((diag_le_frob (by omega) _).trans (mul_le_mul_of_nonneg_left h1 (Real.sqrt_nonneg _))))
    split
    · rw [← Complex.sub_re]; exact Complex.abs_re_le_norm _
    · simp
  refine (abs_sub_le _ _ _).trans ((add_le_add hv h7).trans ?_)
  linarith

/-- **C96, gates then purity.** After `k` gates on a matrix of Frobenius norm at most one, every outcome of `get_purity` is within
`3 k E + sumErr u η dim² 4` of the purity after the exact gates. -/
theorem C96_gates_purity (A : Accurate lib val u w η Ω) (Z : AddZero val Ω) (hε : u + η + w ≤ ε) (hε1 : ε ≤ 1 / 64) {n : Nat} (hn : n < 32) {E : ℝ}
    (hE : E = 8192 * (2 * ε + η * 2 ^ n)) {ds : List GateDesc} {gs : List UGate}
    (hb : List.Forall₂ (fun d g => GateDesc.build d = .ok g) ds gs) (hd : ∀ d ∈ ds, BoundedDM u w η ε n d)
    (hk : ds.length * E ≤ 1) {M M' : U64 × U64 → Cx F} (hM : frob (2 ^ n) (fun p => cval val (M p)) ≤ 1)
    (h : GatesRunDMF lib n gs M M') (hΩ : ((1 : ℝ) + u) ^ (4 ^ n + 2) * (4 + 2 * ((4 ^ n : ℕ) : ℝ) * η) ≤ Ω) :
    Within val (PurityF n true M') (frob (2 ^ n) (exactDensity (2 ^ n) ds fun p => cval val (M p)) ^ 2)
      (3 * (ds.length * E) + sumErr u η (4 ^ n) 4) := by
  have hu0 := A.u_nonneg
  have hη0 := A.eta_nonneg
  have hw0 := A.w_nonneg
  obtain ⟨h1, h2, h3⟩ := computed_density A hε hn hE hb hd hk hM h
  have g0 := frob_nonneg (2 ^ n) fun p => cval val (M' p)
  have g1 := frob_nonneg (2 ^ n) (exactDensity (2 ^ n) ds fun p => cval val (M p))
  have hP4 : frob (2 ^ n) (fun p => cval val (M' p)) ^ 2 ≤ 4 := by nlinarith
  obtain ⟨he, hall⟩ := (C96_purity A Z (by linarith) (by linarith) (by omega) (M := M')
    (fun p hp => (cell_le_frob (pow64 (by omega)) (fun p => cval val (M' p)) hp).trans (by linarith)) rfl
    ((mul_le_mul_of_nonneg_left (by linarith) (by positivity)).trans hΩ)).1
  refine ⟨he, fun r hr => ?_⟩
  obtain ⟨s, hs, hv⟩ := hall r hr
  refine ⟨s, hs, ?_⟩
  have hmono := sumErr_mono hu0 hη0 (le_refl (4 ^ n)) hP4 (by norm_num)
  have a1 := frob_add n (fun p => cval val (M' p) - exactDensity (2 ^ n) ds (fun p => cval val (M p)) p)
    (exactDensity (2 ^ n) ds fun p => cval val (M p))
  simp only [sub_add_cancel] at a1
  have a2 := frob_add n (fun p => -(cval val (M' p) - exactDensity (2 ^ n) ds (fun p => cval val (M p)) p)) fun p => cval val (M' p)
  rw [show (fun p => -(cval val (M' p) - exactDensity (2 ^ n) ds (fun p => cval val (M p)) p) + cval val (M' p)) =
      exactDensity (2 ^ n) ds fun p => cval val (M p) by funext p; ring,
    show frob (2 ^ n) (fun p => -(cval val (M' p) - exactDensity (2 ^ n) ds (fun p => cval val (M p)) p)) =
      frob (2 ^ n) (fun p => cval val (M' p) - exactDensity (2 ^ n) ds (fun p => cval val (M p)) p) by unfold frob; simp only [norm_neg]] at a2
  have hdiff : |frob (2 ^ n) (fun p => cval val (M' p)) ^ 2 - frob (2 ^ n) (exactDensity (2 ^ n) ds fun p => cval val (M p)) ^ 2| ≤
      3 * (ds.length * E) := by
    rw [sq_sub_sq, abs_mul, mul_comm 3]
    rw [mul_comm]
    refine mul_le_mul (abs_le.2 ⟨by linarith, by linarith⟩) ?_ (abs_nonneg _) ((frob_nonneg _ _).trans h1)
    rw [abs_of_nonneg (by linarith)]
    linarith
  refine (abs_sub_le _ _ _).trans ((add_le_add hv hdiff).trans ?_)
  linarith

end

/-! ## exact arithmetic -/

/-- **C96, exact numbers.** With exact arithmetic all orders of the additions give the same result, the one of the models of C51 and C58. -/
theorem C96_exact {d : DM} (hn : d.n ≤ 63) :
    (∀ r, TraceF d.n d.raw r ↔ r = d.trace) ∧
    (∀ q (r : Res ℝ), ZeroProbabilityMF d.n d.hermitian d.raw q r ↔ r = d.zeroProbability q) ∧
    (∀ pattern (r : Res ℝ), MarginalProbabilityMF d.n d.hermitian d.raw pattern r ↔ r = d.marginalProbability pattern) ∧
    (∀ r : Res ℝ, PurityF d.n d.hermitian d.raw r ↔ r = d.purity) := by
  have hp := pow64 hn
  refine ⟨fun r => ?_, fun q r => ?_, fun pattern r => ?_, fun r => ?_⟩
  · rw [trace_eq (by omega)]
    exact rangeReduction_exact' (trace_eq (by omega)) r
  · unfold ZeroProbabilityMF DM.zeroProbability
    by_cases hq : q ≥ d.n
    · rw [if_pos hq, if_pos hq]
    · rw [if_neg hq, if_neg hq]
      by_cases hb : d.hermitian = false
      · rw [if_pos hb, if_pos hb]
      · rw [if_neg hb, if_neg hb, zeroSumM hn (by omega)]
        exact rangeReduction_exact' (zeroSumM hn (by omega)) r
  · unfold MarginalProbabilityMF DM.marginalProbability
    by_cases hl : pattern.length ≠ d.n
    · rw [if_pos hl, if_pos hl]
    · rw [if_neg hl, if_neg hl]
      by_cases hb : d.hermitian = false
      · rw [if_pos hb, if_pos hb]
      · rw [if_neg hb, if_neg hb]
        by_cases hv : ∀ v ∈ pattern, v ≤ 2
        · rw [measuredTargets_ok 0 pattern hv, ok_bind, List.length_map, marginalSumM hn (by omega)]
          dsimp only
          rw [List.length_map]
          exact rangeReduction_exact' (marginalSumM hn (by omega)) r
        · obtain ⟨e, he⟩ := measuredTargets_bad 0 pattern (by
            by_contra hc
            exact hv fun v h => by by_contra h2; exact hc ⟨v, h, by omega⟩)
          rw [he]
          rfl
  · by_cases hb : d.hermitian = false
    · unfold PurityF DM.purity
      rw [if_pos hb, if_pos hb]
    · rw [purity_eq hn (by simpa using hb)]
      unfold PurityF
      rw [if_neg hb, reduction_ok (g := fun p => Complex.normSq (d.raw (BitVec.ofNat 64 p.1, BitVec.ofNat 64 p.2)))]
      · rw [← range_indices hp fun i => ∑ j ∈ indices (2 ^ d.n), Complex.normSq (d.raw (i, j))]
        have e : (((List.range (2 ^ d.n)).product (List.range (2 ^ d.n))).map fun p =>
            Complex.normSq (d.raw (BitVec.ofNat 64 p.1, BitVec.ofNat 64 p.2))).sum =
            ∑ i ∈ Finset.range (2 ^ d.n), ∑ j ∈ indices (2 ^ d.n), Complex.normSq (d.raw (BitVec.ofNat 64 i, j)) := by
          rw [sum_product, sum_map_range]
          refine Finset.sum_congr rfl fun i _ => ?_
          rw [sum_map_range, range_indices hp fun j => Complex.normSq (d.raw (BitVec.ofNat 64 i, j))]
        constructor
        · rintro ⟨s, rfl, hs⟩
          rw [reducesTo_exact.1 hs, e]
        · rintro rfl
          exact ⟨_, rfl, reducesTo_exact.2 e.symm⟩
      · intro p hm
        have h := List.pair_mem_product.1 (show (p.1, p.2) ∈ (List.range (2 ^ d.n)) ×ˢ (List.range (2 ^ d.n)) from hm)
        rw [List.mem_range, List.mem_range] at h
        rw [readMF_ok d.raw (by
          rw [Verif.toNat_ofNat_lt (by omega), Verif.toNat_ofNat_lt (by omega)]
          exact h), ok_bind]
        exact congrArg Except.ok (Complex.normSq_apply _).symm

/-! ## examples in the arithmetic of 53-bit significands -/

theorem groundMatrix_cell (p : U64 × U64) : ‖cval Bin.val (groundMatrix p)‖ ≤ 1 := by
  rw [congrFun groundMatrix_val p]
  split <;> simp

open Classical in
/-- The sample circuit on the ground state, then readings: the trace is 1, the probability of finding qubit 0 in 0 and the purity are those of
the exact circuit, all up to `2⁻³²`. -/
example : ∃ gs, List.Forall₂ (fun d g => GateDesc.build d = .ok g) sampleGates gs ∧ ∃ M', GatesRunDMF Bin.lib 2 gs groundMatrix M' ∧
    WithinC Bin.val (TraceF 2 M') (traceOf (2 ^ 2) fun p => cval Bin.val (groundMatrix p)) (2⁻¹ ^ 32) ∧
    Within Bin.val (MarginalProbabilityMF 2 true M' [0, 2]) (∑ j ∈ indices (2 ^ 2), if Matches [0, 2] j then
      (exactDensity (2 ^ 2) sampleGates (fun p => cval Bin.val (groundMatrix p)) (j, j)).re else 0) (2⁻¹ ^ 32) ∧
    Within Bin.val (PurityF 2 true M') (frob (2 ^ 2) (exactDensity (2 ^ 2) sampleGates fun p => cval Bin.val (groundMatrix p)) ^ 2) (2⁻¹ ^ 32) := by
  obtain ⟨gs, hb⟩ := sampleGates_built
  have hl : sampleGates.length = 3 := rfl
  have A := Bin.accurate (Ω := 64) le_rfl
  have Z := bin_addZero 64
  have hd := sampleGates_dm
  have hM := groundMatrix_frob.le
  have hs : √((2 : ℝ) ^ 2) = 2 := Real.sqrt_sq (by norm_num)
  have hk : (sampleGates.length : ℝ) * (8192 * (2 * 2⁻¹ ^ 50 + 0 * 2 ^ 2)) ≤ 1 := by rw [hl]; norm_num
  obtain ⟨M', h1, -, -⟩ := C95_sequence A (by norm_num) (by norm_num) rfl hb hd hk groundMatrix hM
  refine ⟨gs, hb, M', h1, ?_, ?_, ?_⟩
  · obtain ⟨e, h⟩ := C96_gates_trace A Z (by norm_num) (by norm_num) rfl hb hd (fun d h => (sampleGates_facts d h).2.1) hk hM h1
      (by rw [hs]; norm_num)
    refine ⟨e, fun r hr => ?_⟩
    obtain ⟨s, h2, h3, h4⟩ := h r hr
    exact ⟨s, h2, h3.trans (by rw [hs, hl]; norm_num), h4.trans (by rw [hs, hl]; norm_num)⟩
  · obtain ⟨e, h⟩ := C96_gates_probability A Z (by norm_num) (by norm_num) rfl hb hd hk hM h1 (by rw [hs]; norm_num)
      (pattern := [0, 2]) ⟨rfl, by simp⟩
    refine ⟨e, fun r hr => ?_⟩
    obtain ⟨s, h2, h3⟩ := h r hr
    exact ⟨s, h2, h3.trans (by rw [hs, hl]; norm_num)⟩
  · obtain ⟨e, h⟩ := C96_gates_purity A Z (by norm_num) (by norm_num) (by norm_num) rfl hb hd hk hM h1 (by norm_num)
    refine ⟨e, fun r hr => ?_⟩
    obtain ⟨s, h2, h3⟩ := h r hr
    exact ⟨s, h2, h3.trans (by rw [hl]; unfold sumErr; norm_num)⟩

/-- tracing qubits 2 and 0 of three out of the ground state -/
example : (∃ r, PartialTraceF 3 groundMatrix [2, 0] r) ∧ ∀ r, PartialTraceF 3 groundMatrix [2, 0] r → ∃ M', r = .ok (1, M') ∧ ∀ p, CellOf 1 p →
    |Bin.val (M' p).re - (partialTraceOf 3 [2, 0] (fun p => cval Bin.val (groundMatrix p)) p).re| ≤ 2⁻¹ ^ 48 := by
  have A := Bin.accurate (Ω := 64) le_rfl
  have hD : ∀ p : U64 × U64, ∑ x ∈ Finset.range (2 ^ [2, 0].length),
      ‖cval Bin.val (groundMatrix (jointIndex 3 [2, 0] p.1.toNat x, jointIndex 3 [2, 0] p.2.toNat x))‖ ≤ 4 := fun p =>
    (Finset.sum_le_card_nsmul _ _ 1 fun x _ => groundMatrix_cell _).trans (by simp)
  obtain ⟨h1, h2⟩ := (C96_partial_trace A (bin_addZero 64) (n := 3) (by norm_num) (qs := [2, 0]) (M := groundMatrix) (fun _ => rfl)
    (fun p _ => (mul_le_mul_of_nonneg_left (hD p) (by positivity)).trans (by norm_num))).1 ⟨by simp, by simp, by simp, by simp⟩
  refine ⟨h1, fun r hr => ?_⟩
  obtain ⟨M', h3, h4⟩ := h2 r hr
  refine ⟨M', h3, fun p hp => (h4 p hp).1.trans ?_⟩
  refine (mul_le_mul_of_nonneg_left (hD p) (by norm_num)).trans ?_
  norm_num

/-- calls that throw: qubit 2 of 2, a pattern with the value 3, a matrix without flag, a qubit traced out twice -/
example : ¬ (2 < 2 ∧ true = true) ∧ ¬ ([3, 0].length = 2 ∧ true = true ∧ ∀ v ∈ [3, 0], v ≤ 2) ∧ ¬ (0 < 2 ∧ false = true) ∧
    ¬ ([1, 1].Nodup ∧ ∀ q ∈ [1, 1], q < 2) := by simp

end Verif.Props
