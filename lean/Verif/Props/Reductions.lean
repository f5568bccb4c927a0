import Verif.Proofs.FloatTable
import Verif.Proofs.FloatStability
import Verif.Proofs.BinExact
import Verif.Proofs.FloatReal
import Verif.Proofs.StateOps
import Verif.Proofs.StateVec
import Verif.Props.Rounding
import Verif.Props.Operator
import Verif.Props.State

/-! # C72: norms, probabilities, inner products and expectation values in floating-point arithmetic

`SquaredNormF`, `ZeroProbabilityF`, … (`Model/FloatReduce.lean`) are relations between a state and the outcomes of a parallel
reduction, one outcome for every order and grouping of the additions.  The theorems say that there is an outcome, that every
outcome is a number (no out-of-range access), and how far it is from the exact value, which is given by the definitions of
`Spec/Algebra.lean`, `Spec/StateVec.lean` and `Spec/Desc.lean`.
-/

namespace Verif.Props
open Verif Verif.Spec Verif.Model Verif.Proofs
attribute [-simp] BitVec.getLsbD_eq_getElem

section
variable {F : Type} [_root_.Zero F] [One F] [Add F] [Sub F] [Mul F] [Neg F] {lib : FloatLib F} {val : F → ℝ} {u w η Ω ε : ℝ}

/-- Every outcome `r` of a computation is a number within `e` of `v`, and there is an outcome. -/
def Within (val : F → ℝ) (Out : Res F → Prop) (v e : ℝ) : Prop :=
  (∃ r, Out r) ∧ ∀ r, Out r → ∃ s, r = .ok s ∧ |val s - v| ≤ e

/-- the same for complex numbers, each part within `e` -/
def WithinC (val : F → ℝ) (Out : Res (Cx F) → Prop) (v : ℂ) (e : ℝ) : Prop :=
  (∃ r, Out r) ∧ ∀ r, Out r → ∃ s, r = .ok s ∧ |val s.re - v.re| ≤ e ∧ |val s.im - v.im| ≤ e

theorem within_squared (A : Accurate lib val u w η Ω) (Z : AddZero val Ω) (hu : u ≤ 1 / 64) (hη : η ≤ 1 / 64) {dim N : Nat} (hN : 1 ≤ N)
    {m : U64 → Cx F} (hm : ∀ j : U64, j.toNat < dim → ‖cval val (m j)‖ ≤ 4) {idx : U64 → U64} {P : ℝ}
    (hP : reduceSum N (fun i => readSq dim (fun j => cval val (m j)) (idx i)) = .ok P)
    (hΩ : (1 + u) ^ (N + 2) * (P + 2 * N * η) ≤ Ω) :
    Within val (RangeReduction N fun i => readSqF dim m (idx i)) P (sumErr u η N P) := by
  have h := squared_reduction A Z hu hη hN hm hP hΩ
  constructor
  · obtain ⟨s, hs⟩ := reducesTo_exists ((List.range N).map fun i => (squaredC (m (idx (BitVec.ofNat 64 i))) : F))
    obtain ⟨g, hg, -⟩ := reduceSum_inv hP
    refine ⟨.ok s, (rangeReduction_ok (g := fun i => squaredC (m (idx (BitVec.ofNat 64 i)))) ?_ _).2 ⟨s, rfl, hs⟩⟩
    intro i hi
    have := hg i hi
    unfold readSq readAt at this
    unfold readSqF
    split at this
    · next h' => rw [readAt_ok h']; rfl
    · cases this
  · intro r hr
    obtain ⟨s, h1, -, h2⟩ := (h r).1 hr
    exact ⟨s, h1, h2⟩

/-! ## the state given -/

/-- **C72, norms.** `get_squared_norm` is the squared norm up to `sumErr`. -/
theorem C72_squared_norm (A : Accurate lib val u w η Ω) (Z : AddZero val Ω) (hu : u ≤ 1 / 64) (hη : η ≤ 1 / 64) {n : Nat} (hn : n ≤ 63)
    {m : U64 → Cx F} (hm : ∀ j : U64, j.toNat < 2 ^ n → ‖cval val (m j)‖ ≤ 4) {P : ℝ} (hP : P = normSq (2 ^ n) fun j => cval val (m j))
    (hΩ : ((1 : ℝ) + u) ^ (2 ^ n + 2) * (P + 2 * ((2 ^ n : ℕ) : ℝ) * η) ≤ Ω) :
    Within val (SquaredNormF n m) P (sumErr u η (2 ^ n) P) :=
  within_squared A Z hu hη Nat.one_le_two_pow hm (idx := id) (hP ▸ squaredNorm_eq hn _) hΩ

/-- **C72, one qubit.** `get_zero_probability(q)` is the probability of finding qubit `q` in 0 up to `sumErr`; other qubits throw. -/
theorem C72_zero_probability (A : Accurate lib val u w η Ω) (Z : AddZero val Ω) (hu : u ≤ 1 / 64) (hη : η ≤ 1 / 64) {n q : Nat} (hn : n ≤ 63)
    {m : U64 → Cx F} (hm : ∀ j : U64, j.toNat < 2 ^ n → ‖cval val (m j)‖ ≤ 4) {P : ℝ} (hP : P = bitProb n (fun j => cval val (m j)) q false)
    (hΩ : ((1 : ℝ) + u) ^ (2 ^ (n - 1) + 2) * (P + 2 * ((2 ^ (n - 1) : ℕ) : ℝ) * η) ≤ Ω) :
    (q < n → Within val (ZeroProbabilityF n q m) P (sumErr u η (2 ^ (n - 1)) P)) ∧
    (n ≤ q → ∃ e, ∀ r, ZeroProbabilityF (F := F) n q m r ↔ r = .error (.throw e)) := by
  constructor
  · intro hq
    have hs : (2 ^ n) >>> 1 = 2 ^ (n - 1) := by
      obtain ⟨k, rfl⟩ : ∃ k, n = k + 1 := ⟨n - 1, by omega⟩
      rw [Nat.shiftRight_eq_div_pow, pow_succ]; simp
    have h := zeroSum hn hq (fun j => cval val (m j))
    rw [hs, ← hP] at h
    have := within_squared A Z hu hη Nat.one_le_two_pow hm (idx := fun i => insertZeroAt i q) h hΩ
    unfold ZeroProbabilityF
    simp only [if_neg (show ¬ q ≥ n by omega), hs]
    exact this
  · intro hq
    unfold ZeroProbabilityF
    simp only [if_pos hq]
    exact ⟨_, fun _ => Iff.rfl⟩

/-- the number of measured qubits of a pattern -/
def measuredCount (pattern : List Nat) : Nat := pattern.countP (· ≤ 1)

theorem measuredOf_count (i : Nat) (l : List Nat) : (measuredOf i l).length = measuredCount l := by
  induction l generalizing i with
  | nil => rfl
  | cons v l ih =>
    unfold measuredOf measuredCount
    rw [List.countP_cons]
    by_cases h0 : v = 0
    · subst h0; simp [ih, measuredCount]
    · by_cases h1 : v = 1
      · subst h1; simp [ih, measuredCount]
      · rw [if_neg h0, if_neg h1, ih, if_neg (by simp; omega)]; rfl

/-- **C72, patterns.** `get_marginal_probability` is the probability of the pattern up to `sumErr`, `N` the number of indices that agree
with the pattern; other patterns throw. -/
theorem C72_marginal_probability (A : Accurate lib val u w η Ω) (Z : AddZero val Ω) (hu : u ≤ 1 / 64) (hη : η ≤ 1 / 64) {n : Nat} (hn : n ≤ 63)
    {m : U64 → Cx F} (hm : ∀ j : U64, j.toNat < 2 ^ n → ‖cval val (m j)‖ ≤ 4) (pattern : List Nat) {P : ℝ} {N : Nat}
    (hP : P = bornProb n (fun j => cval val (m j)) pattern) (hN : N = 2 ^ (n - measuredCount pattern))
    (hΩ : (1 + u) ^ (N + 2) * (P + 2 * N * η) ≤ Ω) :
    ((pattern.length = n ∧ ∀ v ∈ pattern, v ≤ 2) → Within val (MarginalProbabilityF n m pattern) P (sumErr u η N P)) ∧
    (¬ (pattern.length = n ∧ ∀ v ∈ pattern, v ≤ 2) →
      ∃ e, ∀ r, MarginalProbabilityF (F := F) n m pattern r ↔ r = .error (.throw e)) := by
  constructor
  · rintro ⟨hl, hv⟩
    have hlen := measuredOf_length 0 pattern
    rw [measuredOf_count] at hlen
    have hs : (2 ^ n) >>> measuredCount pattern = N := by
      rw [Nat.shiftRight_eq_div_pow, Nat.pow_div (by omega) (by omega), hN]
    have h := marginalSum hn (fun j => cval val (m j)) hl
      (fun i => insertValues i ((measuredOf 0 pattern).map fun p => (p.1, p.2.toNat))) (fun i => insertValues_eq i _)
    rw [measuredOf_count, hs, ← hP] at h
    have := within_squared A Z hu hη (by rw [hN]; exact Nat.one_le_two_pow) hm
      (idx := fun i => insertValues i ((measuredOf 0 pattern).map fun p => (p.1, p.2.toNat))) h hΩ
    unfold MarginalProbabilityF
    simp only [if_neg (show ¬ pattern.length ≠ n by omega), measuredTargets_ok 0 pattern hv, List.length_map, measuredOf_count, hs]
    exact this
  · intro hbad
    unfold MarginalProbabilityF
    by_cases hl : pattern.length ≠ n
    · simp only [if_pos hl]; exact ⟨_, fun _ => Iff.rfl⟩
    · simp only [if_neg hl]
      obtain ⟨e, he⟩ := measuredTargets_bad 0 pattern (by
        by_contra hc
        exact hbad ⟨by omega, fun v hv => by by_contra h2; exact hc ⟨v, hv, by omega⟩⟩)
      simp only [he]
      exact ⟨e, fun _ => Iff.rfl⟩

/-- **C72, inner products.** `inner_product` is `⟨a|b⟩` up to `sumErr` of `Σ |a_j| |b_j|` in each part; states of different
dimensions throw. -/
theorem C72_inner_product (A : Accurate lib val u w η Ω) (Z : AddZero val Ω) (hu : u ≤ 1 / 64) (hη : η ≤ 1 / 64) {n n' : Nat} (hn : n ≤ 63)
    {a b : U64 → Cx F} (ha : ∀ j : U64, j.toNat < 2 ^ n → ‖cval val (a j)‖ ≤ 4) (hb : ∀ j : U64, j.toNat < 2 ^ n → ‖cval val (b j)‖ ≤ 4) {S : ℝ}
    (hS : S = ∑ j ∈ indices (2 ^ n), ‖cval val (a j)‖ * ‖cval val (b j)‖)
    (hΩ : (1 + u) ^ (2 ^ n + 2) * (S + 2 * ((2 ^ n : ℕ) : ℝ) * η) ≤ Ω) :
    (n = n' → WithinC val (InnerProductF n n' a b) (inner (2 ^ n) (fun j => cval val (a j)) fun j => cval val (b j)) (sumErr u η (2 ^ n) S)) ∧
    (n ≠ n' → ∃ e, ∀ r, InnerProductF n n' a b r ↔ r = .error (.throw e)) := by
  constructor
  · rintro rfl
    have h := inner_reduction A Z hu hη hn ha hb hS hΩ
    constructor
    · obtain ⟨s, hs⟩ := reducesTo_exists ((List.range (2 ^ n)).map fun i => conjC (a (BitVec.ofNat 64 i)) * b (BitVec.ofNat 64 i))
      refine ⟨.ok s, ?_⟩
      unfold InnerProductF
      rw [if_neg (fun h => h rfl), rangeReduction_ok (g := fun i => conjC (a (BitVec.ofNat 64 i)) * b (BitVec.ofNat 64 i))]
      · exact ⟨s, rfl, hs⟩
      · intro i hi
        have hlt : (BitVec.ofNat 64 i).toNat < 2 ^ n := by rw [toNat_ofNat_pow hn hi]; exact hi
        rw [readAt_ok hlt, readAt_ok hlt]; rfl
    · intro r hr
      obtain ⟨s, h1, -, h2, h3⟩ := (h r).1 hr
      exact ⟨s, h1, h2, h3⟩
  · intro hne
    unfold InnerProductF
    have h2 : 2 ^ n ≠ 2 ^ n' := fun h => hne (Nat.pow_right_injective le_rfl h)
    simp only [if_pos h2]
    exact ⟨_, fun _ => Iff.rfl⟩

/-- **C72, expectation values.** `get_expectation_value` is `⟨ψ|O|ψ⟩` up to `expErr` in each part. -/
theorem C72_expectation (A : Accurate lib val u w η Ω) (Z : AddZero val Ω) (hu : u ≤ 1 / 64) (hη : η ≤ 1 / 1000) {n : Nat} (hn1 : 1 ≤ n) (hn : n ≤ 64)
    {m : U64 → Cx F} (hm : ∀ j : U64, j.toNat < 2 ^ n → ‖cval val (m j)‖ ≤ 4) {o : Op} (ho : OpFits o n)
    (hc : ∀ p ∈ o.terms, ‖p.coef‖ ≤ 32) {C S : ℝ} (hC : C = (o.terms.map fun p => ‖p.coef‖).sum)
    (hS : S = normSq (2 ^ n) fun j => cval val (m j))
    (hΩ : ((1 : ℝ) + u) ^ (o.terms.length * 2 ^ (n - 1) + 8) * (C * S + 100 * ((2 ^ (n - 1) : ℕ) : ℝ) * η * (o.terms.length + C)) ≤ Ω) :
    WithinC val (Op.ExpectationF lib o (2 ^ n) m) (inner (2 ^ n) (fun j => cval val (m j)) (sumOperator o.terms fun j => cval val (m j)))
      (expErr u η o.terms.length (2 ^ (n - 1)) C S) := by
  rw [sumOperator_eq]
  obtain ⟨⟨s, hs⟩, h2⟩ := expectation_reduction A Z hu hη hn1 hn hm (opFits_x ho) hc hC hS hΩ
  exact ⟨⟨_, hs⟩, h2⟩

/-! ## the state computed by a circuit -/

theorem expErr_mono (hu0 : 0 ≤ u) {T N : Nat} {C S S' : ℝ} (hC : 0 ≤ C) (hS : S ≤ S') : expErr u η T N C S ≤ expErr u η T N C S' := by
  unfold expErr
  have h3 : 1 ≤ (1 + u) ^ (T * N + 7) := one_le_pow₀ (by linarith)
  have := mul_le_mul_of_nonneg_left (mul_le_mul_of_nonneg_left hS hC) (show 0 ≤ (1 + u) ^ (T * N + 7) - 1 by linarith)
  linarith

/-- what is known about the amplitudes after a circuit whose error is at most one -/
theorem computed_state {n : Nat} (hn : n ≤ 63) {ψ φ : U64 → ℂ} {e : ℝ} (he : e ≤ 1) (hφ : stateNorm (2 ^ n) φ ≤ 1)
    (h : stateNorm (2 ^ n) (fun j => ψ j - φ j) ≤ e) :
    ‖vec n ψ - vec n φ‖ * (‖vec n ψ‖ + ‖vec n φ‖) ≤ 3 * e ∧ normSq (2 ^ n) ψ ≤ 4 ∧ ∀ j : U64, j.toNat < 2 ^ n → ‖ψ j‖ ≤ 4 := by
  rw [stateNorm, sqrt_normSq hn] at h hφ
  rw [vec_sub] at h
  have hψ : ‖vec n ψ‖ ≤ 2 := by
    have := norm_add_le (vec n ψ - vec n φ) (vec n φ)
    rw [sub_add_cancel] at this
    linarith
  have he0 : 0 ≤ e := (norm_nonneg _).trans h
  have hsq : normSq (2 ^ n) ψ ≤ 4 := by rw [normSq_vec hn]; nlinarith [norm_nonneg (vec n ψ)]
  refine ⟨?_, hsq, fun j hj => ?_⟩
  · calc _ ≤ e * 3 := mul_le_mul h (by linarith) (by positivity) he0
      _ = 3 * e := by ring
  · have h1 : Complex.normSq (ψ j) ≤ normSq (2 ^ n) ψ :=
      Finset.single_le_sum (f := fun j => Complex.normSq (ψ j)) (fun _ _ => Complex.normSq_nonneg _) ((mem_indices (pow64 hn)).2 hj)
    rw [Complex.normSq_eq_norm_sq] at h1
    nlinarith [norm_nonneg (ψ j)]

/-- **C72, circuit then probabilities.** A circuit of `k` unitary gates on a state of norm one, followed by
`get_marginal_probability`: every outcome is within `3 k E` (the errors of the gates) plus `sumErr u η (2 ^ n) 4` (that of the sum)
of the probability of the pattern after the exact circuit. -/
theorem C72_circuit_probability (A : Accurate lib val u w η Ω) (Z : AddZero val Ω) (hε : u + η + w ≤ ε) (h4 : ε ≤ 1 / 400) {ds : List GateDesc} {gs : List UGate}
    (hb : List.Forall₂ (fun d g => GateDesc.build d = .ok g) ds gs) (hd : ∀ d ∈ ds, Bounded u w η Ω ε d)
    (hu : ∀ d ∈ ds, UnitaryDesc d) {L n : Nat} (hf : Fits L 1 n) (hq : ∀ d ∈ ds, ∀ q ∈ qubitsOf d, q < n) {K : ℝ}
    (hK : ∀ d ∈ ds, terms d ≤ K) (hKε : K * ε ≤ 1 / 400) (hKΩ : 16 * K ≤ Ω) {E : ℝ}
    (hE : E = 256 * K ^ 2 * (2 * ε + η * √((2 ^ n : Nat) : ℝ))) (hk : ds.length * E ≤ 1)
    (hΩ : ((1 : ℝ) + u) ^ (2 ^ n + 2) * (4 + 2 * ((2 ^ n : ℕ) : ℝ) * η) ≤ Ω) (m m' : U64 → Cx F)
    (hm : stateNorm (2 ^ n) (fun j => cval val (m j)) ≤ 1) (hr : GatesRunF lib L n gs m m') {pattern : List Nat}
    (hp : pattern.length = n ∧ ∀ v ∈ pattern, v ≤ 2) :
    Within val (MarginalProbabilityF n m' pattern) (bornProb n (exactRun ds fun j => cval val (m j)) pattern)
      (3 * (ds.length * E) + sumErr u η (2 ^ n) 4) := by
  have hn : n ≤ 63 := by have := hf.qubits; omega
  have hu0 := A.u_nonneg
  have hη0 := A.eta_nonneg
  have hw0 := A.w_nonneg
  obtain ⟨m₁, h1, -, h2⟩ := C67_circuit A hε h4 hb hd hu hf hq hK hKε hKΩ hE hk m hm
  cases gatesRunF_unique hr h1
  have hφ := (exactRun_norm hn hb (fun d h => ⟨(hd d h).args, hu d h, hq d h⟩) (fun j => cval val (m j))).trans_le hm
  obtain ⟨g1, g2, g3⟩ := computed_state hn hk hφ h2
  have hPle : bornProb n (fun j => cval val (m' j)) pattern ≤ 4 := (bornProb_le n _ pattern).trans g2
  have hNle : 2 ^ (n - measuredCount pattern) ≤ 2 ^ n := Nat.pow_le_pow_right (by omega) (by omega)
  have hN' : ((2 ^ (n - measuredCount pattern) : ℕ) : ℝ) ≤ ((2 ^ n : ℕ) : ℝ) := by exact_mod_cast hNle
  have hP0 := bornProb_nonneg n (fun j => cval val (m' j)) pattern
  obtain ⟨⟨r, hr0⟩, hall⟩ := (C72_marginal_probability A Z (by linarith) (by linarith) hn g3 pattern rfl rfl (by
    refine le_trans (mul_le_mul (pow_le_pow_right₀ (by linarith) (by omega)) (add_le_add hPle ?_) (by positivity) (by positivity)) hΩ
    exact mul_le_mul_of_nonneg_right (by linarith) hη0)).1 hp
  refine ⟨⟨r, hr0⟩, fun r hr => ?_⟩
  obtain ⟨s, hs, hv⟩ := hall r hr
  refine ⟨s, hs, ?_⟩
  have hdiff := (prob_diff hn (fun j => cval val (m' j)) (exactRun ds fun j => cval val (m j)) (Matches pattern)).trans g1
  have hmono := sumErr_mono hu0 hη0 hNle hPle (by norm_num)
  calc _ = |(val s - bornProb n (fun j => cval val (m' j)) pattern) +
          (bornProb n (fun j => cval val (m' j)) pattern - bornProb n (exactRun ds fun j => cval val (m j)) pattern)| := by congr 1; ring
    _ ≤ _ := (abs_add_le _ _).trans (by
      have e : |bornProb n (fun j => cval val (m' j)) pattern - bornProb n (exactRun ds fun j => cval val (m j)) pattern| ≤ 3 * (ds.length * E) := by
        unfold bornProb; exact hdiff
      linarith)

/-- **C72, circuit then expectation value.** A circuit of `k` unitary gates on a state of norm at most one followed by
`get_expectation_value`: every outcome is, in each part, within `3 C k E + expErr` of the exact value, `C` the sum of the magnitudes of
the coefficients of the operator. -/
theorem C72_circuit_expectation (A : Accurate lib val u w η Ω) (Z : AddZero val Ω) (hε : u + η + w ≤ ε) (h4 : ε ≤ 1 / 1000) {ds : List GateDesc} {gs : List UGate}
    (hb : List.Forall₂ (fun d g => GateDesc.build d = .ok g) ds gs) (hd : ∀ d ∈ ds, Bounded u w η Ω ε d)
    (hu : ∀ d ∈ ds, UnitaryDesc d) {L n : Nat} (hn1 : 1 ≤ n) (hf : Fits L 1 n) (hq : ∀ d ∈ ds, ∀ q ∈ qubitsOf d, q < n) {K : ℝ}
    (hK : ∀ d ∈ ds, terms d ≤ K) (hKε : K * ε ≤ 1 / 400) (hKΩ : 16 * K ≤ Ω) {E : ℝ}
    (hE : E = 256 * K ^ 2 * (2 * ε + η * √((2 ^ n : Nat) : ℝ))) (hk : ds.length * E ≤ 1) {o : Op} (ho : OpFits o n)
    (hc : ∀ p ∈ o.terms, ‖p.coef‖ ≤ 32) {C : ℝ} (hC : C = (o.terms.map fun p => ‖p.coef‖).sum)
    (hΩ : ((1 : ℝ) + u) ^ (o.terms.length * 2 ^ (n - 1) + 8) * (C * 4 + 100 * ((2 ^ (n - 1) : ℕ) : ℝ) * η * (o.terms.length + C)) ≤ Ω)
    (m m' : U64 → Cx F) (hm : stateNorm (2 ^ n) (fun j => cval val (m j)) ≤ 1) (hr : GatesRunF lib L n gs m m') :
    WithinC val (Op.ExpectationF lib o (2 ^ n) m')
      (inner (2 ^ n) (exactRun ds fun j => cval val (m j)) (sumOperator o.terms (exactRun ds fun j => cval val (m j))))
      (3 * C * (ds.length * E) + expErr u η o.terms.length (2 ^ (n - 1)) C 4) := by
  have hn : n ≤ 63 := by have := hf.qubits; omega
  have hu0 := A.u_nonneg
  have hη0 := A.eta_nonneg
  have hw0 := A.w_nonneg
  have hC0 : 0 ≤ C := hC ▸ List.sum_nonneg (by simp)
  obtain ⟨m₁, h1, -, h2⟩ := C67_circuit A hε (by linarith) hb hd hu hf hq hK hKε hKΩ hE hk m hm
  cases gatesRunF_unique hr h1
  have hφ := (exactRun_norm hn hb (fun d h => ⟨(hd d h).args, hu d h, hq d h⟩) (fun j => cval val (m j))).trans_le hm
  obtain ⟨g1, g2, g3⟩ := computed_state hn hk hφ h2
  obtain ⟨hex, hall⟩ := C72_expectation A Z (by linarith) (by linarith) hn1 (by omega) g3 ho hc hC rfl (by
    refine le_trans (mul_le_mul_of_nonneg_left (add_le_add (mul_le_mul_of_nonneg_left g2 hC0) le_rfl) (by positivity)) hΩ)
  refine ⟨hex, fun r hr => ?_⟩
  obtain ⟨s, hs, hre, him⟩ := hall r hr
  have hdiff := expect_diff hn (opFits_x ho) (fun j => cval val (m' j)) (exactRun ds fun j => cval val (m j))
  rw [← hC] at hdiff
  have hdiff' := hdiff.trans (mul_le_mul_of_nonneg_left g1 hC0)
  rw [sumOperator_eq] at hre him
  rw [sumOperator_eq]
  have hmono := expErr_mono (η := η) hu0 (T := o.terms.length) (N := 2 ^ (n - 1)) hC0 g2
  generalize inner (2 ^ n) (fun j => cval val (m' j)) (OpAct o.terms fun j => cval val (m' j)) = v at *
  generalize inner (2 ^ n) (exactRun ds fun j => cval val (m j)) (OpAct o.terms (exactRun ds fun j => cval val (m j))) = v' at *
  have e1 := (Complex.abs_re_le_norm (v - v')).trans hdiff'
  have e2 := (Complex.abs_im_le_norm (v - v')).trans hdiff'
  rw [Complex.sub_re] at e1
  rw [Complex.sub_im] at e2
  refine ⟨s, hs, ?_, ?_⟩
  · have := abs_sub_le (val s.re) v.re v'.re; linarith
  · have := abs_sub_le (val s.im) v.im v'.im; linarith

end

/-! ## exact arithmetic

The models coincide with those of C26, C33 and C56, so the theorems above speak about the same functions. -/

/-- **C72, exact numbers.** With exact arithmetic all orders of the additions give the same result, the one of the sequential models. -/
theorem C72_exact {n : Nat} (hn : n ≤ 63) (ψ φ : U64 → ℂ) :
    (∀ r : Res ℝ, SquaredNormF n ψ r ↔ r = squaredNorm n ψ) ∧
    (∀ q (r : Res ℝ), ZeroProbabilityF n q ψ r ↔ r = zeroProbability n q ψ) ∧
    (∀ pattern (r : Res ℝ), MarginalProbabilityF n ψ pattern r ↔ r = marginalProbability n ψ pattern) ∧
    (∀ n' r, InnerProductF (F := ℝ) n n' ψ φ r ↔ r = innerProduct n n' ψ φ) ∧
    (1 ≤ n → ∀ o, OpFits o n → ∀ r, Op.ExpectationF exactLib o (2 ^ n) ψ r ↔ r = o.expectation (2 ^ n) ψ) := by
  refine ⟨fun r => ?_, fun q r => ?_, fun pattern r => ?_, fun n' r => ?_, fun hn1 o ho r => ?_⟩
  · unfold SquaredNormF
    rw [squaredNorm_eq hn, funext (readSqF_exact (2 ^ n) ψ)]
    exact rangeReduction_exact' (squaredNorm_eq hn ψ) r
  · unfold ZeroProbabilityF zeroProbability
    by_cases hq : q ≥ n
    · rw [if_pos hq, if_pos hq]
    · rw [if_neg hq, if_neg hq, zeroSum hn (by omega)]
      simp only [readSqF_exact]
      exact rangeReduction_exact' (zeroSum hn (by omega) ψ) r
  · unfold MarginalProbabilityF
    by_cases hl : pattern.length ≠ n
    · unfold marginalProbability
      rw [if_pos hl, if_pos hl]
    · rw [if_neg hl]
      by_cases hv : ∀ v ∈ pattern, v ≤ 2
      · rw [marginalProbability_eq hn ψ (by omega) hv]
        simp only [measuredTargets_ok 0 pattern hv, readSqF_exact, List.length_map]
        exact rangeReduction_exact' (marginalSum hn ψ (by omega) _ (fun i => insertValues_eq i _)) r
      · obtain ⟨e, he⟩ := measuredTargets_bad 0 pattern (by
          by_contra hc
          exact hv fun v h => by by_contra h2; exact hc ⟨v, h, by omega⟩)
        unfold marginalProbability
        rw [if_neg hl]
        simp only [he]
        rfl
  · by_cases h : n = n'
    · subst h
      rw [innerProduct_eq hn]
      have e := innerProduct_eq hn ψ φ
      unfold innerProduct at e
      rw [if_neg (fun h => h rfl)] at e
      unfold InnerProductF
      rw [if_neg (fun h => h rfl)]
      exact rangeReduction_exact' e r
    · have h2 : 2 ^ n ≠ 2 ^ n' := fun h' => h (Nat.pow_right_injective le_rfl h')
      unfold InnerProductF innerProduct
      rw [if_pos h2, if_pos h2]
  · rw [(C26_values_partial o hn1 (by omega) ho).1]
    have e := opExpectation_spec o hn1 (by omega) (opFits_x ho) ψ
    unfold Op.ExpectationF
    have hitem : ∀ w ∈ termRange o.terms (2 ^ n >>> 1), ∃ x, expItem (2 ^ n) ψ w.1 (BitVec.ofNat 64 w.2) = .ok x := by
      intro w hw
      obtain ⟨h1, h2⟩ := mem_termRange.1 hw
      obtain ⟨g, hg, -⟩ := expItem_sum w.1 hn1 (by omega) (opFits_x ho _ h1) ψ
      exact ⟨_, hg _ h2⟩
    have hitem' : ∀ w, ∃ x, w ∈ termRange o.terms (2 ^ n >>> 1) → expItem (2 ^ n) ψ w.1 (BitVec.ofNat 64 w.2) = .ok x := by
      intro w
      by_cases h : w ∈ termRange o.terms (2 ^ n >>> 1)
      · obtain ⟨x, hx⟩ := hitem w h; exact ⟨x, fun _ => hx⟩
      · exact ⟨0, fun h' => absurd h' h⟩
    choose g hg using hitem'
    rw [reducePairs_ok hg] at e
    rw [reduction_ok (g := g) (fun w hw => by rw [expItemF_exact]; exact hg w hw), sumOperator_eq, ← e]
    constructor
    · rintro ⟨s, rfl, hs⟩
      rw [reducesTo_exact.1 hs]
    · rintro rfl
      exact ⟨_, rfl, reducesTo_exact.2 rfl⟩

/-! ## results that depend on the order -/

/-- the number `2 ^ e` -/
def binPow (e : ℤ) : Bin := ⟨1, e, by norm_num⟩

theorem binPow_val (e : ℤ) : (binPow e).val = (2 : ℝ) ^ e := by show ((1 : ℤ) : ℝ) * (2 : ℝ) ^ e = _; simp

/-- a state of two qubits with the amplitudes `1, 2⁻²⁷, 2⁻²⁷, 2⁻²⁷` -/
def unevenState : U64 → Cx Bin := fun j => ⟨if j = 0 then 1 else binPow (-27), 0⟩

theorem unevenState_sq : (squaredC (unevenState 0) : Bin).val = 1 ∧
    ∀ j, j ≠ 0 → (squaredC (unevenState j) : Bin).val = (2 : ℝ) ^ (-54 : ℤ) := by
  have hz : ((0 : Bin) * 0).val = 0 := by show (Bin.near ((0 : Bin).val * (0 : Bin).val)).val = 0; rw [Bin.val_zero, mul_zero, Bin.near_zero, Bin.val_zero]
  constructor
  · show ((1 : Bin) * 1 + 0 * 0).val = 1
    rw [(bin_addZero 64).right _ _ hz] <;>
    · have : ((1 : Bin) * 1).val = 1 := by
        show (Bin.near ((1 : Bin).val * (1 : Bin).val)).val = 1
        rw [Bin.val_one, one_mul, Bin.near_one]
      rw [this]; try norm_num
  · intro j hj
    show (_ * _ + (0 : Bin) * 0 : Bin).val = _
    have e : (Cplx.re (unevenState j) : Bin) = binPow (-27) := by show (if j = 0 then (1 : Bin) else binPow (-27)) = _; rw [if_neg hj]
    rw [e]
    have : (binPow (-27) * binPow (-27)).val = (2 : ℝ) ^ (-54 : ℤ) := by
      show (Bin.near ((binPow (-27)).val * (binPow (-27)).val)).val = _
      rw [binPow_val, ← zpow_add₀ (by norm_num), ← binPow_val, near_val, binPow_val]
      norm_num
    rw [(bin_addZero 64).right _ _ hz, this]
    rw [this]; norm_num

/-- **C72, no reproducibility.** Norms are not determined by the state: for the amplitudes `1, 2⁻²⁷, 2⁻²⁷, 2⁻²⁷` one order of the
additions gives `1`, another `1 + 2⁻⁵²`.  (For gates and circuits this cannot happen, C69.) -/
theorem C72_not_reproducible : ∃ s s' : Bin, SquaredNormF 2 unevenState (.ok s) ∧ SquaredNormF 2 unevenState (.ok s') ∧
    s.val = 1 ∧ s'.val = 1 + (2 : ℝ) ^ (-52 : ℤ) := by
  obtain ⟨h0, h1⟩ := unevenState_sq
  have hred : ∀ s : Bin, ReducesTo ([0, 1, 2, 3].map fun i : Nat => squaredC (unevenState (BitVec.ofNat 64 i))) s → SquaredNormF 2 unevenState (.ok s) := by
    intro s hs
    unfold SquaredNormF
    rw [rangeReduction_ok (g := fun i => squaredC (unevenState (BitVec.ofNat 64 i)))]
    · exact ⟨s, rfl, hs⟩
    · intro i hi
      unfold readSqF
      rw [readAt_ok (by rw [toNat_ofNat_pow (n := 2) (by omega) hi]; exact hi)]
      rfl
  have hadd : ∀ x y : Bin, (x + y).val = (Bin.near (x.val + y.val)).val := fun _ _ => rfl
  set a : Bin := squaredC (unevenState (BitVec.ofNat 64 0)) with ha
  set b : Bin := squaredC (unevenState (BitVec.ofNat 64 1)) with hb
  set c : Bin := squaredC (unevenState (BitVec.ofNat 64 2)) with hc
  set d : Bin := squaredC (unevenState (BitVec.ofNat 64 3)) with hd
  have va : a.val = 1 := h0
  have vb : b.val = (2 : ℝ) ^ (-54 : ℤ) := h1 _ (by decide)
  have vc : c.val = (2 : ℝ) ^ (-54 : ℤ) := h1 _ (by decide)
  have vd : d.val = (2 : ℝ) ^ (-54 : ℤ) := h1 _ (by decide)
  have small : (Bin.near (1 + (2 : ℝ) ^ (-54 : ℤ))).val = 1 := by
    rw [near_of (k := 0) (m := 2 ^ 52) (by norm_num) (by norm_num) (by norm_num) (by norm_num)]
    norm_num
  have two : (Bin.near ((2 : ℝ) ^ (-54 : ℤ) + (2 : ℝ) ^ (-54 : ℤ))).val = (2 : ℝ) ^ (-53 : ℤ) := by
    rw [near_of (k := -53) (m := 2 ^ 52) (by norm_num) (by norm_num) (by norm_num) (by norm_num)]
    norm_num
  have three : (Bin.near ((2 : ℝ) ^ (-53 : ℤ) + (2 : ℝ) ^ (-54 : ℤ))).val = 3 * (2 : ℝ) ^ (-54 : ℤ) := by
    rw [near_of (k := -53) (m := 3 * 2 ^ 51) (by norm_num) (by norm_num) (by norm_num) (by norm_num)]
    norm_num
  have big : (Bin.near (3 * (2 : ℝ) ^ (-54 : ℤ) + 1)).val = 1 + (2 : ℝ) ^ (-52 : ℤ) := by
    rw [near_of (k := 0) (m := 2 ^ 52 + 1) (by norm_num) (by norm_num) (by norm_num) (by norm_num [abs_lt])]
    norm_num
  have hzero : ∀ x : Bin, (0 + x).val = x.val := fun x => (bin_addZero |x.val|).left _ _ Bin.val_zero le_rfl
  refine ⟨0 + a + b + c + d, 0 + d + c + b + a, hred _ ?_, hred _ ?_, ?_, ?_⟩
  · exact .perm (l := [d, c, b, a]) (List.reverse_perm [a, b, c, d]) (.item d (.item c (.item b (.item a .init))))
  · exact .item a (.item b (.item c (.item d .init)))
  · rw [hadd, hadd, hadd, hzero, va, vb, vc, vd, small, small, small]
  · rw [hadd, hadd, hadd, hzero, va, vb, vc, vd, two, three, big]

/-! ## examples: double precision -/

/-- The state `unevenState` has amplitudes at most 4, so C72 applies to it: norms are within `2⁻⁴⁹` of `1 + 3 * 2⁻⁵⁴`. -/
example : Within Bin.val (SquaredNormF 2 unevenState) (normSq (2 ^ 2) fun j => cval Bin.val (unevenState j))
    (sumErr (2⁻¹ ^ 53) 0 (2 ^ 2) (normSq (2 ^ 2) fun j => cval Bin.val (unevenState j))) := by
  have hamp : ∀ j, ‖cval Bin.val (unevenState j)‖ ≤ 1 := by
    intro j
    have e : cval Bin.val (unevenState j) = ((if j = 0 then (1 : Bin) else binPow (-27)).val : ℂ) := by
      apply Complex.ext
      · rfl
      · show (0 : Bin).val = 0; exact Bin.val_zero
    rw [e, Complex.norm_real]
    split
    · rw [Bin.val_one]; norm_num
    · rw [binPow_val]; norm_num
  refine C72_squared_norm (Bin.accurate (Ω := 64) le_rfl) (bin_addZero 64) (by norm_num) (by norm_num) (by norm_num)
    (fun j _ => (hamp j).trans (by norm_num)) rfl ?_
  have h4 : normSq (2 ^ 2) (fun j => cval Bin.val (unevenState j)) ≤ 4 := by
    unfold normSq
    refine (Finset.sum_le_card_nsmul _ _ 1 fun j _ => ?_).trans ?_
    · rw [Complex.normSq_eq_norm_sq]; nlinarith [hamp j, norm_nonneg (cval Bin.val (unevenState j))]
    · have : ((indices (2 ^ 2)).card : ℝ) ≤ ((2 ^ 2 : ℕ) : ℝ) := by exact_mod_cast card_indices'
      rw [nsmul_eq_mul, mul_one]; exact this.trans (by norm_num)
  refine le_trans (mul_le_mul_of_nonneg_left (add_le_add h4 le_rfl) (by positivity)) ?_
  norm_num

/-- The sample circuit on a state of norm one: the probability of finding the first qubit in 0 (which is 1/2 for the initial state
`|00⟩`) is computed with an error of at most `2⁻³⁷`. -/
example : ∃ gs, List.Forall₂ (fun d g => GateDesc.build d = .ok g) sampleGates gs ∧ ∀ m m' : U64 → Cx Bin,
    stateNorm (2 ^ 2) (fun j => cval Bin.val (m j)) ≤ 1 → GatesRunF Bin.lib 8 2 gs m m' →
      Within Bin.val (MarginalProbabilityF 2 m' [0, 2]) (bornProb 2 (exactRun sampleGates fun j => cval Bin.val (m j)) [0, 2]) (2⁻¹ ^ 37) := by
  obtain ⟨gs, hb⟩ := sampleGates_built
  refine ⟨gs, hb, fun m m' hm hr => ?_⟩
  have hf : Fits 8 1 2 := ⟨Or.inr ⟨3, by norm_num, by norm_num⟩, by norm_num, by norm_num⟩
  have F := sampleGates_facts
  have hl : sampleGates.length = 3 := rfl
  obtain ⟨h1, h2⟩ := C72_circuit_probability (Bin.accurate le_rfl) (bin_addZero 64) (ε := 2⁻¹ ^ 50) (by norm_num) (by norm_num) hb
    (fun d h => (F d h).1) (fun d h => (F d h).2.1) hf (fun d h => (F d h).2.2.2) (K := 1) (fun d h => (F d h).2.2.1) (by norm_num)
    (by norm_num) rfl (by rw [hl]; norm_num) (by norm_num) m m' hm hr (pattern := [0, 2]) ⟨rfl, by simp⟩
  refine ⟨h1, fun r h => ?_⟩
  obtain ⟨s, hs, he⟩ := h2 r h
  refine ⟨s, hs, he.trans ?_⟩
  rw [hl]; unfold sumErr; norm_num

/-- the operator `0.5 Z₀ + (1 + i) X₀ Y₁` -/
noncomputable def sampleObservable : Op := Op.ofTerms [⟨1 / 2, 0, 1⟩, ⟨1 + Complex.I, 3, 2⟩]

/-- Its expectation value after the sample circuit is computed with an error of at most `2⁻³⁵`. -/
example : ∃ gs, List.Forall₂ (fun d g => GateDesc.build d = .ok g) sampleGates gs ∧ ∀ m m' : U64 → Cx Bin,
    stateNorm (2 ^ 2) (fun j => cval Bin.val (m j)) ≤ 1 → GatesRunF Bin.lib 8 2 gs m m' →
      WithinC Bin.val (Op.ExpectationF Bin.lib sampleObservable (2 ^ 2) m')
        (inner (2 ^ 2) (exactRun sampleGates fun j => cval Bin.val (m j))
          (sumOperator sampleObservable.terms (exactRun sampleGates fun j => cval Bin.val (m j)))) (2⁻¹ ^ 35) := by
  obtain ⟨gs, hb⟩ := sampleGates_built
  refine ⟨gs, hb, fun m m' hm hr => ?_⟩
  have hf : Fits 8 1 2 := ⟨Or.inr ⟨3, by norm_num, by norm_num⟩, by norm_num, by norm_num⟩
  have F := sampleGates_facts
  have hl : sampleGates.length = 3 := rfl
  have n1 : ‖(1 / 2 : ℂ)‖ = 1 / 2 := by simp
  have n2 : ‖(1 + Complex.I : ℂ)‖ ≤ 2 := (norm_add_le _ _).trans (by simp; norm_num)
  have hC : (sampleObservable.terms.map fun p => ‖p.coef‖).sum ≤ 5 / 2 := by
    show ‖(1 / 2 : ℂ)‖ + (‖(1 + Complex.I : ℂ)‖ + 0) ≤ _
    rw [n1]; linarith
  have hC0 : 0 ≤ (sampleObservable.terms.map fun p => ‖p.coef‖).sum := List.sum_nonneg (by simp)
  have hT : sampleObservable.terms.length = 2 := rfl
  obtain ⟨h1, h2⟩ := C72_circuit_expectation (Bin.accurate le_rfl) (bin_addZero 64) (ε := 2⁻¹ ^ 50) (by norm_num) (by norm_num) hb
    (fun d h => (F d h).1) (fun d h => (F d h).2.1) (by norm_num) hf (fun d h => (F d h).2.2.2) (K := 1) (fun d h => (F d h).2.2.1) (by norm_num)
    (by norm_num) rfl (by rw [hl]; norm_num) (o := sampleObservable) (by
      intro p hp
      simp only [sampleObservable, Op.ofTerms, List.mem_cons, List.not_mem_nil, or_false] at hp
      unfold PauliFits
      rcases hp with rfl | rfl <;> (simp only [pauliQubits]; decide)) (by
      intro p hp
      simp only [sampleObservable, Op.ofTerms, List.mem_cons, List.not_mem_nil, or_false] at hp
      rcases hp with rfl | rfl
      · show ‖(1 / 2 : ℂ)‖ ≤ 32; rw [n1]; norm_num
      · exact n2.trans (by norm_num)) rfl (by
      rw [hT]
      have : ((1 : ℝ) + 2⁻¹ ^ 53) ^ (2 * 2 ^ (2 - 1) + 8) ≤ 2 := by norm_num
      have h0 : (0 : ℝ) ≤ (1 + 2⁻¹ ^ 53) ^ (2 * 2 ^ (2 - 1) + 8) := by positivity
      generalize ((1 : ℝ) + 2⁻¹ ^ 53) ^ (2 * 2 ^ (2 - 1) + 8) = t at *
      nlinarith) m m' hm hr
  refine ⟨h1, fun r h => ?_⟩
  obtain ⟨s, hs, he, he'⟩ := h2 r h
  have hbound : 3 * (sampleObservable.terms.map fun p => ‖p.coef‖).sum * ((sampleGates.length : ℝ) * (256 * 1 ^ 2 * (2 * 2⁻¹ ^ 50 + 0 * √((2 ^ 2 : ℕ) : ℝ)))) +
      expErr (2⁻¹ ^ 53) 0 sampleObservable.terms.length (2 ^ (2 - 1)) (sampleObservable.terms.map fun p => ‖p.coef‖).sum 4 ≤ 2⁻¹ ^ 35 := by
    rw [hT, hl]
    unfold expErr
    generalize (sampleObservable.terms.map fun p => ‖p.coef‖).sum = C at *
    norm_num
    linarith
  exact ⟨s, hs, he.trans hbound, he'.trans hbound⟩

end Verif.Props
