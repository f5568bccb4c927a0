import Verif.Proofs.FloatDensityVec
import Verif.Props.FloatDensityRead
import Verif.Props.FloatVec

/-! # C97: making and combining density matrices in floating-point arithmetic

`loadVectorMF`, `multiplyCoefMF`, `addWithCoefMF` and `NormalizesMF` (`Model/FloatDensityVec.lean`) run on elements that are pairs of
numbers of a type `F` with any operations.  The specification is the arithmetic of complex matrices and the Frobenius norm.
-/

namespace Verif.Props
open Verif Verif.Spec Verif.Model Verif.Proofs
open scoped ComplexConjugate
attribute [-simp] BitVec.getLsbD_eq_getElem

theorem frob_projector {n : Nat} (hn : n ≤ 63) (ψ : U64 → ℂ) : frob (2 ^ n) (projector ψ) = stateNorm (2 ^ n) ψ ^ 2 := by
  have h : ∑ r ∈ Finset.range (2 ^ n), ∑ c ∈ Finset.range (2 ^ n), ‖projector ψ (BitVec.ofNat 64 r, BitVec.ofNat 64 c)‖ ^ 2 =
      normSq (2 ^ n) ψ ^ 2 := by
    rw [sq (normSq _ _)]
    unfold normSq
    rw [← range_indices (pow64 hn), Finset.sum_mul_sum]
    refine Finset.sum_congr rfl fun r _ => Finset.sum_congr rfl fun c _ => ?_
    unfold projector
    rw [norm_mul, RCLike.norm_conj, mul_pow, Complex.normSq_eq_norm_sq, Complex.normSq_eq_norm_sq]
  unfold frob stateNorm
  rw [h, Real.sqrt_sq (normSq_nonneg' _ _), Real.sq_sqrt (normSq_nonneg' _ _)]

/-- the gates on a pure density matrix are the gates on the vector -/
theorem exactDensity_projector {n : Nat} (hn : n < 32) {ds : List GateDesc} {gs : List UGate}
    (hb : List.Forall₂ (fun d g => GateDesc.build d = .ok g) ds gs) (hs : ∀ d ∈ ds, StandardDesc d ∧ ∀ q ∈ qubitsOf d, q < n)
    {ρ : U64 × U64 → ℂ} {ψ : U64 → ℂ} (h : ∀ p, CellOf n p → ρ p = projector ψ p) :
    ∀ p, CellOf n p → exactDensity (2 ^ n) ds ρ p = projector (exactRun ds ψ) p := by
  induction hb generalizing ρ ψ with
  | nil => exact h
  | @cons d g ds gs hg hgs ih =>
    obtain ⟨h1, h2⟩ := hs d List.mem_cons_self
    obtain ⟨-, -, ho, ht, -, -⟩ := standard_facts hn h1 hg h2
    refine ih (fun d h => hs d (List.mem_cons_of_mem _ h)) (ρ := conjugatedBy (2 ^ n) (operatorOf d) ρ) (ψ := operatorOf d ψ) fun p hp => ?_
    have e : conjugatedBy (2 ^ n) (operatorOf d) ρ p = conjugatedBy (2 ^ n) (operatorOf d) (projector ψ) p := by
      unfold conjugatedBy
      refine Finset.sum_congr rfl fun r hr => Finset.sum_congr rfl fun c hc => ?_
      have hlt : ∀ k ∈ Finset.range (2 ^ n), (BitVec.ofNat 64 k).toNat < 2 ^ n := by
        intro k hk
        rw [Finset.mem_range] at hk
        rw [Verif.toNat_ofNat_lt (lt_of_lt_of_le hk (pow64 (by omega)))]; exact hk
      rw [h (BitVec.ofNat 64 r, BitVec.ofNat 64 c) ⟨hlt r hr, hlt c hc⟩]
    rw [e, ← ho, ← conjugatedBy_eq (by omega) ht _ hp]
    refine (onMatrix_projector _ ψ hp).trans ?_
    unfold projector onState
    rw [if_pos hp.1, if_pos hp.2]
    rfl

section
variable {F : Type} [_root_.Zero F] [One F] [Add F] [Sub F] [Mul F] [Neg F] {lib : FloatLib F} {E : DivLib F} {val : F → ℝ} {u w η Ω ε : ℝ}

/-! ## the operations -/

/-- **C97, loading a state.** `load(StateVector)` of `n` qubits with amplitudes of magnitude at most 4 ends, under every schedule, in one
matrix, within `6 u ‖ψ‖² + 6 η dim` of `|ψ⟩⟨ψ|` in the Frobenius norm; a vector of another size throws. -/
theorem C97_load (A : Accurate lib val u w η Ω) (hu : u ≤ 1 / 64) (hη : η ≤ 1 / 64) {n : Nat} (hn : n < 32) (ψ : U64 → Cx F)
    (hψ : ∀ j : U64, j.toNat < 2 ^ n → ‖cval val (ψ j)‖ ≤ 4) :
    (∃ ls, loadVectorMF (F := F) n n ψ = .ok ls ∧ ∀ M, ∃ M', MRuns (2 ^ n) ls M M' ∧ (∀ M'', MRuns (2 ^ n) ls M M'' → M'' = M') ∧
      frob (2 ^ n) (fun p => cval val (M' p) - projector (fun j => cval val (ψ j)) p) ≤
        6 * u * stateNorm (2 ^ n) (fun j => cval val (ψ j)) ^ 2 + 6 * η * 2 ^ n) ∧
    ∀ n', n' ≠ n → ∃ e, loadVectorMF (F := F) n n' ψ = .error (.throw e) := by
  have hu0 := A.u_nonneg
  have hη0 := A.eta_nonneg
  refine ⟨⟨_, if_neg (by simp), fun M => ⟨_, cells_fill hn (fun p => ψ p.1 * conjC (F := F) (ψ p.2)) M, fun M'' h =>
      h.unique (cells_fill hn (fun p => ψ p.1 * conjC (F := F) (ψ p.2)) M), ?_⟩⟩,
    fun n' h => ⟨_, if_pos h⟩⟩
  rw [← frob_projector (by omega)]
  have key := frob_bound (n := n) (by omega) (M := projector fun j => cval val (ψ j)) (N := fun _ => 0)
    (d := fun p => cval val (if p.1.toNat < 2 ^ n ∧ p.2.toNat < 2 ^ n then ψ p.1 * conjC (F := F) (ψ p.2) else M p) -
      projector (fun j => cval val (ψ j)) p) (C := 6 * u) (D := 6 * η) (by positivity) (by positivity) (fun p hp => by
      rw [if_pos (show p.1.toNat < 2 ^ n ∧ p.2.toNat < 2 ^ n from hp), norm_zero, add_zero]
      obtain ⟨h1, h2⟩ := mulConj_appr A hu hη (hψ p.1 hp.1) (hψ p.2 hp.2)
      have e : ‖projector (fun j => cval val (ψ j)) p‖ = ‖cval val (ψ p.1)‖ * ‖cval val (ψ p.2)‖ := by
        unfold projector
        rw [norm_mul, RCLike.norm_conj]
      have hg : 0 ≤ ‖cval val (ψ p.1)‖ * ‖cval val (ψ p.2)‖ := by positivity
      have k : ((1 + u) ^ 2 - 1) * (‖cval val (ψ p.1)‖ * ‖cval val (ψ p.2)‖) + (1 + u) * (2 * η) ≤
          3 * u * (‖cval val (ψ p.1)‖ * ‖cval val (ψ p.2)‖) + 3 * η := by
        have : (1 + u) ^ 2 - 1 ≤ 3 * u := by nlinarith
        have := mul_le_mul_of_nonneg_right this hg
        nlinarith
      have := norm_le_parts (x := cval val (ψ p.1 * conjC (F := F) (ψ p.2))) (y := projector (fun j => cval val (ψ j)) p)
        (h1.1.trans k) (h2.1.trans k)
      rw [e]
      linarith)
  rw [show frob (2 ^ n) (fun _ => (0 : ℂ)) = 0 by simpa using frob_const (2 ^ n) (le_refl (0 : ℝ)), add_zero] at key
  exact key

/-- **C97, scaling.** `multiply_coef` with a coefficient of magnitude at most 1: within `9 (u + η) ‖ρ‖ + 5 η dim` of `c ρ`. -/
theorem C97_multiply (A : Accurate lib val u w η Ω) (hu : u ≤ 1 / 64) (hη : η ≤ 1 / 64) {n : Nat} (hn : n < 32) {M : U64 × U64 → Cx F}
    (hM : ∀ p, CellOf n p → ‖cval val (M p)‖ ≤ 4) {c : ℂ} (hc : ‖c‖ ≤ 1) :
    ∃ M', MRuns (2 ^ n) (multiplyCoefMF lib n c) M M' ∧ (∀ M'', MRuns (2 ^ n) (multiplyCoefMF lib n c) M M'' → M'' = M') ∧
      frob (2 ^ n) (fun p => cval val (M' p) - c * cval val (M p)) ≤ 9 * (u + η) * frob (2 ^ n) (fun p => cval val (M p)) + 5 * η * 2 ^ n := by
  have hu0 := A.u_nonneg
  have hη0 := A.eta_nonneg
  refine ⟨_, cells_step hn _ M, fun M'' h => h.unique (cells_step hn _ M), ?_⟩
  have key := frob_bound (n := n) (by omega) (M := fun p => cval val (M p)) (N := fun _ => 0)
    (d := fun p => cval val (if p.1.toNat < 2 ^ n ∧ p.2.toNat < 2 ^ n then M p * castC lib c else M p) - c * cval val (M p))
    (C := 9 * (u + η)) (D := 5 * η) (by positivity) (by positivity) (fun p hp => by
      rw [if_pos (show p.1.toNat < 2 ^ n ∧ p.2.toNat < 2 ^ n from hp), norm_zero, add_zero, mul_comm c]
      refine (mul_coef A hu hη (castC_near A hc) hc (by linarith) (by linarith [hM p hp])).trans ?_
      have := norm_nonneg (cval val (M p))
      nlinarith)
  rw [show frob (2 ^ n) (fun _ => (0 : ℂ)) = 0 by simpa using frob_const (2 ^ n) (le_refl (0 : ℝ)), add_zero] at key
  exact key

/-- **C97, adding.** `add_density_matrix_with_coef` of a matrix of the same size, the coefficient of magnitude at most 1: within
`12 (u + η) (‖ρ‖ + ‖σ‖) + 6 η dim` of `ρ + c σ`; a matrix of another size throws. -/
theorem C97_add (A : Accurate lib val u w η Ω) (hu : u ≤ 1 / 64) (hη : η ≤ 1 / 64) {n : Nat} (hn : n < 32) {M N : U64 × U64 → Cx F}
    (hM : ∀ p, CellOf n p → ‖cval val (M p)‖ ≤ 4) (hN : ∀ p, CellOf n p → ‖cval val (N p)‖ ≤ 4) {c : ℂ} (hc : ‖c‖ ≤ 1) :
    (∃ ls, addWithCoefMF lib n n c N = .ok ls ∧ ∃ M', MRuns (2 ^ n) ls M M' ∧ (∀ M'', MRuns (2 ^ n) ls M M'' → M'' = M') ∧
      frob (2 ^ n) (fun p => cval val (M' p) - (cval val (M p) + c * cval val (N p))) ≤
        12 * (u + η) * (frob (2 ^ n) (fun p => cval val (M p)) + frob (2 ^ n) (fun p => cval val (N p))) + 6 * η * 2 ^ n) ∧
    ∀ n', n' ≠ n → ∃ e, addWithCoefMF lib n n' c N = .error (.throw e) := by
  have hu0 := A.u_nonneg
  have hη0 := A.eta_nonneg
  refine ⟨⟨_, if_neg (by simp), _, cells_step hn _ M, fun M'' h => h.unique (cells_step hn _ M), ?_⟩, fun n' h => ⟨_, if_pos h⟩⟩
  refine frob_bound (by omega) (by positivity) (by positivity) (fun p hp => ?_)
  rw [if_pos (show p.1.toNat < 2 ^ n ∧ p.2.toNat < 2 ^ n from hp)]
  have h1 := coef_mul A hu hη (castC_near A hc) hc (by linarith) (show ‖cval val (N p)‖ ≤ 12 by linarith [hN p hp])
  have na := norm_nonneg (cval val (M p))
  have nb := norm_nonneg (cval val (N p))
  have hma := hM p hp
  have hmb := hN p hp
  have nc : ‖c * cval val (N p)‖ ≤ ‖cval val (N p)‖ := by rw [norm_mul]; nlinarith
  have hb : (2 * (u + η) + 7 * u) * ‖cval val (N p)‖ + 5 * η ≤ 3 / 16 * ‖cval val (N p)‖ + 5 * η := by nlinarith
  have s := sum_terms A (p := M p) (P := cval val (M p)) (ep := 0) (by simp) h1 (by nlinarith)
  have h2 : u * (‖cval val (M p)‖ + ‖c * cval val (N p)‖ + 0 + ((2 * (u + η) + 7 * u) * ‖cval val (N p)‖ + 5 * η)) ≤
      u * (‖cval val (M p)‖ + 19 / 16 * ‖cval val (N p)‖ + 5 * η) :=
    mul_le_mul_of_nonneg_left (by linarith) hu0
  have h3 : u * η ≤ 1 / 64 * η := mul_le_mul_of_nonneg_right hu hη0
  have p1 : 0 ≤ u * ‖cval val (M p)‖ := by positivity
  have p2 : 0 ≤ u * ‖cval val (N p)‖ := by positivity
  have p3 : 0 ≤ η * ‖cval val (M p)‖ := by positivity
  have p4 : 0 ≤ η * ‖cval val (N p)‖ := by positivity
  nlinarith

/-- **C97, normalising.** A matrix with elements of magnitude at most 4 whose trace `T` has magnitude between 1/2 and 2, `D` the sum of the
magnitudes of the diagonal and `τ = 2 ((1 + u) ^ dim - 1) D ≤ 1/4`: `normalize` ends, and whatever the order of the additions, every element
of the result is within `(432 (u + η) + 8 τ) |z| + 112 η` of the element `z / T`, and the trace is within `(432 (u + η) + 8 τ) D + 112 η dim` of 1. -/
theorem C97_normalize (A : Accurate lib val u w η Ω) (Z : AddZero val Ω) (hd : DivAccurate E val u η Ω) (hu : u ≤ 1 / 1024) (hη : η ≤ 1 / 1024)
    {n : Nat} (hn : n < 32) {M : U64 × U64 → Cx F} (hM : ∀ p, CellOf n p → ‖cval val (M p)‖ ≤ 4) {T : ℂ}
    (hT : T = traceOf (2 ^ n) fun p => cval val (M p)) (hT1 : 1 / 2 ≤ ‖T‖) (hT2 : ‖T‖ ≤ 2) {D τ : ℝ}
    (hD : D = ∑ j ∈ indices (2 ^ n), ‖cval val (M (j, j))‖) (hΩ : (1 + u) ^ 2 ^ n * D ≤ Ω) (hτ : τ = 2 * ((1 + u) ^ 2 ^ n - 1) * D)
    (hτ4 : τ ≤ 1 / 4) :
    (∃ M', NormalizesMF E n M M') ∧ ∀ M', NormalizesMF E n M M' →
      (∀ p, CellOf n p → ‖cval val (M' p) - cval val (M p) / T‖ ≤ (432 * (u + η) + 8 * τ) * ‖cval val (M p)‖ + 112 * η) ∧
      ‖traceOf (2 ^ n) (fun p => cval val (M' p)) - 1‖ ≤ (432 * (u + η) + 8 * τ) * D + 112 * η * 2 ^ n := by
  obtain ⟨⟨r, hr⟩, hall⟩ := C96_trace A Z (by omega) hD hΩ
  refine ⟨?_, ?_⟩
  · obtain ⟨t, rfl, -⟩ := hall r hr
    exact ⟨_, t, hr, cells_step hn _ M⟩
  · rintro M' ⟨t, ht, hrun⟩
    obtain ⟨t', e, h1, h2⟩ := hall _ ht
    cases e
    rw [← hT] at h1 h2
    have h3 : ‖cval val t - T‖ ≤ τ := by
      have := norm_le_parts (x := cval val t) (y := T) h1 h2
      rw [hτ]
      linarith
    have hcell : ∀ p, CellOf n p → ‖cval val (M' p) - cval val (M p) / T‖ ≤ (432 * (u + η) + 8 * τ) * ‖cval val (M p)‖ + 112 * η := by
      intro p hp
      rw [hrun.unique (cells_step hn _ M)]
      dsimp only
      rw [if_pos (show p.1.toNat < 2 ^ n ∧ p.2.toNat < 2 ^ n from hp)]
      exact normalize_cell A hd hu hη (hM p hp) hT1 hT2 h3 hτ4
    refine ⟨hcell, ?_⟩
    have hTne : T ≠ 0 := by
      intro h0
      rw [h0, norm_zero] at hT1
      linarith
    have e1 : traceOf (2 ^ n) (fun p => cval val (M' p)) - 1 = ∑ j ∈ indices (2 ^ n), (cval val (M' (j, j)) - cval val (M (j, j)) / T) := by
      rw [Finset.sum_sub_distrib, ← Finset.sum_div, ← traceOf_indices (by omega) fun p => cval val (M' p),
        ← traceOf_indices (by omega) fun p => cval val (M p), ← hT, div_self hTne]
    rw [e1, hD, Finset.mul_sum]
    refine (norm_sum_le _ _).trans ((Finset.sum_le_sum fun j hj => hcell (j, j) ?_).trans ?_)
    · have := (mem_indices (pow64 (by omega))).1 hj
      exact ⟨this, this⟩
    · rw [Finset.sum_add_distrib, Finset.sum_const, nsmul_eq_mul, mul_comm (112 * η)]
      have hcard : ((indices (2 ^ n)).card : ℝ) ≤ 2 ^ n := by exact_mod_cast card_indices' (dim := 2 ^ n)
      have := mul_le_mul_of_nonneg_right hcard (show 0 ≤ 112 * η by linarith [A.eta_nonneg])
      linarith

/-! ## density matrices against state vectors -/

/-- after gates on a matrix near `ρ` -/
theorem near_density (A : Accurate lib val u w η Ω) (hε : u + η + w ≤ ε) {n : Nat} (hn : n < 32) {B : ℝ} (hB : B = 8192 * (2 * ε + η * 2 ^ n))
    {ds : List GateDesc} {gs : List UGate} (hb : List.Forall₂ (fun d g => GateDesc.build d = .ok g) ds gs)
    (hd : ∀ d ∈ ds, BoundedDM u w η ε n d) {e : ℝ} (he : 0 ≤ e) (hk : e + ds.length * B ≤ 1) {M M' : U64 × U64 → Cx F} {ρ : U64 × U64 → ℂ}
    (hρ : frob (2 ^ n) ρ ≤ 1) (hM : frob (2 ^ n) (fun p => cval val (M p) - ρ p) ≤ e) (h : GatesRunDMF lib n gs M M') :
    frob (2 ^ n) (fun p => cval val (M' p) - exactDensity (2 ^ n) ds ρ p) ≤ e + ds.length * B ∧ frob (2 ^ n) (fun p => cval val (M' p)) ≤ 2 := by
  obtain ⟨M₁, h2, h3⟩ := sequence_close A hε hn hB hb hd he hk M ρ hρ hM
  rw [gatesRunDMF_unique h2 h] at h3
  refine ⟨h3, ?_⟩
  have h4 : frob (2 ^ n) (exactDensity (2 ^ n) ds ρ) ≤ 1 := by
    clear h3 h2 h hk hM
    induction hb generalizing ρ with
    | nil => exact hρ
    | @cons d g ds gs hg hgs ih =>
      have hd1 := hd d List.mem_cons_self
      obtain ⟨-, -, -, -, -, hcon⟩ := standard_facts hn hd1.standard hg hd1.qubits
      exact ih (fun d h => hd d (List.mem_cons_of_mem _ h)) ((hcon ρ).trans hρ)
  have := frob_add n (fun p => cval val (M' p) - exactDensity (2 ^ n) ds ρ p) (exactDensity (2 ^ n) ds ρ)
  simp only [sub_add_cancel] at this
  linarith

open Classical in
/-- **C97, simulation.** A state vector of norm at most one is loaded, `k` gates are applied to the density matrix, and
`get_marginal_probability` is called: every outcome is within `√dim (6 u + 6 η dim + k B + 2 ((1 + u) ^ dim - 1))` of the probability
of the pattern in the state vector after the exact gates. -/
theorem C97_simulation (A : Accurate lib val u w η Ω) (Z : AddZero val Ω) (hε : u + η + w ≤ ε) (hε1 : ε ≤ 1 / 64) {n : Nat} (hn : n < 32) {B : ℝ}
    (hB : B = 8192 * (2 * ε + η * 2 ^ n)) {ds : List GateDesc} {gs : List UGate}
    (hb : List.Forall₂ (fun d g => GateDesc.build d = .ok g) ds gs) (hd : ∀ d ∈ ds, BoundedDM u w η ε n d) {e : ℝ}
    (he : e = 6 * u + 6 * η * 2 ^ n) (hk : e + ds.length * B ≤ 1) (ψ : U64 → Cx F)
    (hψ : stateNorm (2 ^ n) (fun j => cval val (ψ j)) ≤ 1) (hΩ : (1 + u) ^ 2 ^ n * (√(2 ^ n) * 2) ≤ Ω) {pattern : List Nat}
    (hp : pattern.length = n ∧ ∀ v ∈ pattern, v ≤ 2) :
    ∃ ls, loadVectorMF (F := F) n n ψ = .ok ls ∧ ∀ M₀, (∃ M M', MRuns (2 ^ n) ls M₀ M ∧ GatesRunDMF lib n gs M M') ∧
      ∀ M M', MRuns (2 ^ n) ls M₀ M → GatesRunDMF lib n gs M M' → Within val (MarginalProbabilityMF n true M' pattern)
        (bornProb n (exactRun ds fun j => cval val (ψ j)) pattern) (√(2 ^ n) * (e + ds.length * B + 2 * ((1 + u) ^ 2 ^ n - 1))) := by
  have hu0 := A.u_nonneg
  have hη0 := A.eta_nonneg
  have hw0 := A.w_nonneg
  have he0 : 0 ≤ e := by rw [he]; positivity
  have hs0 : 0 ≤ stateNorm (2 ^ n) (fun j => cval val (ψ j)) := Real.sqrt_nonneg _
  have hsq : stateNorm (2 ^ n) (fun j => cval val (ψ j)) ^ 2 ≤ 1 := by nlinarith
  have hρ : frob (2 ^ n) (projector fun j => cval val (ψ j)) ≤ 1 := by rw [frob_projector (by omega)]; exact hsq
  have hamp : ∀ j : U64, j.toNat < 2 ^ n → ‖cval val (ψ j)‖ ≤ 4 := fun j hj =>
    (amp_le_norm (fun j => cval val (ψ j)) hj).trans (by rw [← sqrt_normSq (by omega)]; exact hψ.trans (by norm_num))
  obtain ⟨⟨ls, hls, hrun⟩, -⟩ := C97_load A (by linarith) (by linarith) hn ψ hamp
  refine ⟨ls, hls, fun M₀ => ?_⟩
  obtain ⟨M, h1, h2, h3⟩ := hrun M₀
  have h3 : frob (2 ^ n) (fun p => cval val (M p) - projector (fun j => cval val (ψ j)) p) ≤ e := by
    rw [he]
    have := mul_le_mul_of_nonneg_left hsq (show 0 ≤ 6 * u by positivity)
    linarith
  refine ⟨?_, fun N M' hN h => ?_⟩
  · obtain ⟨M', h4, -⟩ := sequence_close A hε hn hB hb hd he0 hk M _ hρ h3
    exact ⟨M, M', h1, h4⟩
  cases h2 N hN
  obtain ⟨h5, h6⟩ := near_density A hε hn hB hb hd he0 hk hρ h3 h
  have h5 : frob (2 ^ n) (fun p => cval val (M' p) - projector (exactRun ds fun j => cval val (ψ j)) p) ≤ e + ds.length * B := by
    refine (le_of_eq ?_).trans h5
    refine frob_congr (by omega) fun p hp => ?_
    rw [exactDensity_projector hn hb (fun d h => ⟨(hd d h).standard, (hd d h).qubits⟩) (fun p _ => rfl) p hp]
  have h7 : ∑ j ∈ indices (2 ^ n), |(cval val (M' (j, j))).re| ≤ √(2 ^ n) * 2 :=
    (Finset.sum_le_sum fun j _ => Complex.abs_re_le_norm _).trans
      ((diag_le_frob (by omega) fun p => cval val (M' p)).trans (mul_le_mul_of_nonneg_left h6 (Real.sqrt_nonneg _)))
  have hpow : 1 ≤ (1 + u) ^ 2 ^ n := one_le_pow₀ (by linarith)
  obtain ⟨hex, hall⟩ := (C96_marginal_probability A Z (by omega) (b := true) (M := M') pattern rfl
    ((mul_le_mul_of_nonneg_left h7 (by linarith)).trans hΩ)).1 ⟨hp.1, rfl, hp.2⟩
  refine ⟨hex, fun r hr => ?_⟩
  obtain ⟨s, hs, hv⟩ := hall r hr
  refine ⟨s, hs, ?_⟩
  have h8 := mul_le_mul_of_nonneg_left h7 (show 0 ≤ (1 + u) ^ 2 ^ n - 1 by linarith)
  have h9 : |(∑ j ∈ indices (2 ^ n), if Matches pattern j then (cval val (M' (j, j))).re else 0) -
      bornProb n (exactRun ds fun j => cval val (ψ j)) pattern| ≤ √(2 ^ n) * (e + ds.length * B) := by
    unfold bornProb
    rw [← Finset.sum_sub_distrib]
    refine (Finset.abs_sum_le_sum_abs _ _).trans (le_trans (Finset.sum_le_sum fun j _ => ?_)
      ((diag_le_frob (by omega) _).trans (mul_le_mul_of_nonneg_left h5 (Real.sqrt_nonneg _))))
    split
    · refine le_trans (le_of_eq ?_) (Complex.abs_re_le_norm _)
      rw [Complex.sub_re]
      congr 2
      unfold projector
      rw [Complex.mul_conj, Complex.ofReal_re]
    · simp
  refine (abs_sub_le _ _ _).trans ((add_le_add hv h9).trans ?_)
  linarith

/-- **C97, both simulations.** The same gates on a state vector `ψ` of norm at most one and on the density matrix loaded from it: any
two outcomes of `get_marginal_probability` for the same pattern differ by at most the sum of the two error bounds. -/
theorem C97_agree (A : Accurate lib val u w η Ω) (Z : AddZero val Ω) (hε : u + η + w ≤ ε) (h4 : ε ≤ 1 / 400) {ds : List GateDesc} {gs : List UGate}
    (hb : List.Forall₂ (fun d g => GateDesc.build d = .ok g) ds gs) (hd : ∀ d ∈ ds, Bounded u w η Ω ε d) {n : Nat}
    (hdm : ∀ d ∈ ds, BoundedDM u w η ε n d) (hu : ∀ d ∈ ds, UnitaryDesc d) {L : Nat} (hf : Fits L 1 n) (hn : n < 32) {K : ℝ}
    (hK : ∀ d ∈ ds, terms d ≤ K) (hKε : K * ε ≤ 1 / 400) (hKΩ : 16 * K ≤ Ω) {E₁ B e : ℝ}
    (hE : E₁ = 256 * K ^ 2 * (2 * ε + η * √((2 ^ n : Nat) : ℝ))) (hk : ds.length * E₁ ≤ 1) (hB : B = 8192 * (2 * ε + η * 2 ^ n))
    (he : e = 6 * u + 6 * η * 2 ^ n) (hk2 : e + ds.length * B ≤ 1) (hΩ : ((1 : ℝ) + u) ^ (2 ^ n + 2) * (4 + 2 * ((2 ^ n : ℕ) : ℝ) * η) ≤ Ω)
    (hΩ2 : (1 + u) ^ 2 ^ n * (√(2 ^ n) * 2) ≤ Ω) {ψ ψ' : U64 → Cx F} (hψ : stateNorm (2 ^ n) (fun j => cval val (ψ j)) ≤ 1)
    (hr : GatesRunF lib L n gs ψ ψ') {ls : List (MLaunch (Cx F))} (hl : loadVectorMF (F := F) n n ψ = .ok ls)
    {M₀ M M' : U64 × U64 → Cx F} (h1 : MRuns (2 ^ n) ls M₀ M) (h2 : GatesRunDMF lib n gs M M') {pattern : List Nat}
    (hp : pattern.length = n ∧ ∀ v ∈ pattern, v ≤ 2) {r r' : Res F} (hr1 : MarginalProbabilityF n ψ' pattern r)
    (hr2 : MarginalProbabilityMF n true M' pattern r') :
    ∃ s s', r = .ok s ∧ r' = .ok s' ∧ |val s - val s'| ≤
      3 * (ds.length * E₁) + sumErr u η (2 ^ n) 4 + √(2 ^ n) * (e + ds.length * B + 2 * ((1 + u) ^ 2 ^ n - 1)) := by
  obtain ⟨s, hs, a1⟩ := (C72_circuit_probability A Z hε h4 hb hd hu hf (fun d h => (hdm d h).qubits) hK hKε hKΩ hE hk hΩ ψ ψ' hψ hr hp).2 r hr1
  obtain ⟨ls', hls, hsim⟩ := C97_simulation A Z hε (by linarith) hn hB hb hdm he hk2 ψ hψ hΩ2 hp
  rw [hl] at hls
  cases hls
  obtain ⟨s', hs', a2⟩ := ((hsim M₀).2 M M' h1 h2).2 r' hr2
  refine ⟨s, s', hs, hs', ?_⟩
  rw [abs_sub_comm] at a2
  exact (abs_sub_le _ _ _).trans (add_le_add a1 a2)

end

/-! ## exact arithmetic -/

/-- **C97, exact numbers.** With exact arithmetic these are the operations of the model of C59. -/
theorem C97_exact (d : DM) :
    (∀ n ψ, DMOp.exec d (.loadVector n ψ) = (loadVectorMF (F := ℝ) d.n n ψ).map (DMUpdate.mk true)) ∧
    (∀ c, ∃ b, DMOp.exec d (.multiplyCoef c) = .ok ⟨b, multiplyCoefMF exactLib d.n c⟩) ∧
    (∀ c o, ∃ b, DMOp.exec d (.addWithCoef c o) = (addWithCoefMF exactLib d.n o.n c o.raw).map (DMUpdate.mk b)) ∧
    (d.n ≤ 63 → traceOf (2 ^ d.n) d.raw ≠ 0 →
      ∀ M', NormalizesMF exactDivLib d.n d.raw M' ↔ d.Does .normalize ⟨d.n, d.hermitian, M'⟩) := by
  have hc : ∀ c : ℂ, (castC exactLib c : ℂ) = c := fun c => rfl
  have hq : ∀ a t : ℂ, quotC exactDivLib a t = a / t := by
    intro a t
    apply Complex.ext
    · rw [Complex.div_re, ← add_div, Complex.normSq_apply]; rfl
    · rw [Complex.div_im, ← sub_div, Complex.normSq_apply]; rfl
  refine ⟨fun n ψ => ?_, fun c => ⟨_, rfl⟩, fun c o => ⟨if o.hermitian = false ∨ c.im ≠ 0 then false else d.hermitian, ?_⟩, fun hn h0 M' => ?_⟩
  · unfold loadVectorMF
    simp only [DMOp.exec]
    split <;> rfl
  · unfold addWithCoefMF
    simp only [DMOp.exec]
    split <;> rfl
  · have ht : d.trace = .ok (traceOf (2 ^ d.n) d.raw) := trace_eq (by omega)
    have hx : DMOp.exec d .normalize = .ok ⟨d.hermitian, [elementwiseM (2 ^ d.n) fun _ a => a / traceOf (2 ^ d.n) d.raw]⟩ := by
      simp only [DMOp.exec, ht]
      exact if_neg h0
    unfold NormalizesMF DM.Does
    simp only [hq]
    constructor
    · rintro ⟨t, h1, h2⟩
      rw [(C96_exact hn).1, ht] at h1
      cases h1
      exact ⟨_, hx, by trivial, by trivial, h2⟩
    · rintro ⟨u, h1, -, -, h2⟩
      rw [hx] at h1
      cases h1
      exact ⟨_, ((C96_exact hn).1 _).2 ht.symm, h2⟩

/-! ## examples in the arithmetic of 53-bit significands -/

/-- the basis state 0 -/
def groundVector : U64 → Cx Bin := fun j => if j = 0 then ⟨1, 0⟩ else ⟨0, 0⟩

theorem groundVector_norm : stateNorm (2 ^ 2) (fun j => cval Bin.val (groundVector j)) = 1 := by
  unfold stateNorm normSq
  rw [← range_indices (by norm_num), show (2 ^ 2 : Nat) = 4 from rfl]
  have h1 : (1 : U64) ≠ 0 := by decide
  have h2 : (2 : U64) ≠ 0 := by decide
  have h3 : (3 : U64) ≠ 0 := by decide
  simp [Finset.sum_range_succ, groundVector, cval, Complex.normSq_apply, Bin.val_one, Bin.val_zero]

open Classical in
/-- The sample circuit on the density matrix loaded from the basis state 0: the probability of finding qubit 0 in 0 is that of the exact
circuit on the state vector up to `2⁻³²`. -/
example : ∃ gs, List.Forall₂ (fun d g => GateDesc.build d = .ok g) sampleGates gs ∧ ∃ ls, loadVectorMF (F := Bin) 2 2 groundVector = .ok ls ∧
    ∀ M₀, (∃ M M', MRuns (2 ^ 2) ls M₀ M ∧ GatesRunDMF Bin.lib 2 gs M M') ∧
      ∀ M M', MRuns (2 ^ 2) ls M₀ M → GatesRunDMF Bin.lib 2 gs M M' → Within Bin.val (MarginalProbabilityMF 2 true M' [0, 2])
        (bornProb 2 (exactRun sampleGates fun j => cval Bin.val (groundVector j)) [0, 2]) (2⁻¹ ^ 32) := by
  obtain ⟨gs, hb⟩ := sampleGates_built
  have hl : sampleGates.length = 3 := rfl
  have hs : √((2 : ℝ) ^ 2) = 2 := Real.sqrt_sq (by norm_num)
  obtain ⟨ls, h1, h2⟩ := C97_simulation (Bin.accurate (Ω := 64) le_rfl) (bin_addZero 64) (ε := 2⁻¹ ^ 50) (by norm_num) (by norm_num) (by norm_num) rfl hb
    sampleGates_dm rfl (by rw [hl]; norm_num) groundVector groundVector_norm.le (by rw [hs]; norm_num) (pattern := [0, 2]) ⟨rfl, by simp⟩
  refine ⟨gs, hb, ls, h1, fun M₀ => ⟨(h2 M₀).1, fun M M' h3 h4 => ?_⟩⟩
  obtain ⟨e, h5⟩ := (h2 M₀).2 M M' h3 h4
  refine ⟨e, fun r hr => ?_⟩
  obtain ⟨s, h6, h7⟩ := h5 r hr
  exact ⟨s, h6, h7.trans (by rw [hs, hl]; norm_num)⟩

/-- the two simulations of the sample circuit differ by at most `2⁻³¹` -/
example : ∃ gs, List.Forall₂ (fun d g => GateDesc.build d = .ok g) sampleGates gs ∧ ∀ ψ' ls M₀ M M' r r',
    GatesRunF Bin.lib 8 2 gs groundVector ψ' → loadVectorMF (F := Bin) 2 2 groundVector = .ok ls → MRuns (2 ^ 2) ls M₀ M →
    GatesRunDMF Bin.lib 2 gs M M' → MarginalProbabilityF 2 ψ' [0, 2] r → MarginalProbabilityMF 2 true M' [0, 2] r' →
    ∃ s s', r = .ok s ∧ r' = .ok s' ∧ |Bin.val s - Bin.val s'| ≤ 2⁻¹ ^ 31 := by
  obtain ⟨gs, hb⟩ := sampleGates_built
  have hf : Fits 8 1 2 := ⟨Or.inr ⟨3, by norm_num, by norm_num⟩, by norm_num, by norm_num⟩
  have hl : sampleGates.length = 3 := rfl
  have G := sampleGates_facts
  have hs : √((2 : ℝ) ^ 2) = 2 := Real.sqrt_sq (by norm_num)
  refine ⟨gs, hb, fun ψ' ls M₀ M M' r r' h1 h2 h3 h4 h5 h6 => ?_⟩
  obtain ⟨s, s', a, b, c⟩ := C97_agree (Bin.accurate (Ω := 64) le_rfl) (bin_addZero 64) (ε := 2⁻¹ ^ 50) (by norm_num) (by norm_num) hb
    (fun d h => (G d h).1) sampleGates_dm (fun d h => (G d h).2.1) hf (by norm_num) (K := 1) (fun d h => (G d h).2.2.1) (by norm_num)
    (by norm_num) rfl (by rw [hl]; norm_num) rfl rfl (by rw [hl]; norm_num) (by norm_num) (by rw [hs]; norm_num) groundVector_norm.le
    h1 h2 h3 h4 (pattern := [0, 2]) ⟨rfl, by simp⟩ h5 h6
  refine ⟨s, s', a, b, c.trans ?_⟩
  rw [hs, hl]; unfold sumErr; norm_num

theorem groundMatrix_diag : ∑ j ∈ indices (2 ^ 2), ‖cval Bin.val (groundMatrix (j, j))‖ = 1 := by
  rw [← range_indices (by norm_num), show (2 ^ 2 : Nat) = 4 from rfl]
  simp only [fun p => congrFun groundMatrix_val p, Finset.sum_range_succ, Finset.sum_range_zero]
  simp

theorem groundMatrix_trace : traceOf (2 ^ 2) (fun p => cval Bin.val (groundMatrix p)) = 1 := by
  rw [groundMatrix_val, traceOf, show (2 ^ 2 : Nat) = 4 from rfl]
  simp only [Finset.sum_range_succ, Finset.sum_range_zero]
  simp

/-- normalising the ground state: every element moves by at most `2⁻⁴⁰` -/
example : (∃ M', NormalizesMF Bin.divLib 2 groundMatrix M') ∧ ∀ M', NormalizesMF Bin.divLib 2 groundMatrix M' →
    (∀ p, CellOf 2 p → ‖cval Bin.val (M' p) - cval Bin.val (groundMatrix p) / 1‖ ≤ 2⁻¹ ^ 40) ∧
    ‖traceOf (2 ^ 2) (fun p => cval Bin.val (M' p)) - 1‖ ≤ 2⁻¹ ^ 40 := by
  obtain ⟨h1, h2⟩ := C97_normalize (Bin.accurate (Ω := 64) le_rfl) (bin_addZero 64) (bin_divAccurate 64) (by norm_num) (by norm_num) (n := 2)
    (by norm_num) (M := groundMatrix) (fun p _ => (groundMatrix_cell p).trans (by norm_num)) groundMatrix_trace.symm (by norm_num) (by norm_num)
    groundMatrix_diag.symm (by norm_num) rfl (by norm_num)
  refine ⟨h1, fun M' h => ?_⟩
  obtain ⟨h3, h4⟩ := h2 M' h
  refine ⟨fun p hp => (h3 p hp).trans ?_, h4.trans (by norm_num)⟩
  refine (add_le_add (mul_le_mul_of_nonneg_left (groundMatrix_cell p) (by norm_num)) le_rfl).trans (by norm_num)

/-- half the ground state and `(1 + i) / 2` times itself meet the hypotheses of `C97_multiply` and `C97_add` -/
example : (∀ p, CellOf 2 p → ‖cval Bin.val (groundMatrix p)‖ ≤ 4) ∧ ‖(1 / 2 : ℂ)‖ ≤ 1 ∧ ‖((1 + Complex.I) / 2 : ℂ)‖ ≤ 1 := by
  refine ⟨fun p _ => (groundMatrix_cell p).trans (by norm_num), by norm_num, ?_⟩
  rw [norm_div]
  have := norm_add_le (1 : ℂ) Complex.I
  rw [norm_one, Complex.norm_I] at this
  rw [show ‖(2 : ℂ)‖ = 2 by norm_num]
  linarith

/-- a matrix of trace 2 meets the hypotheses of `C97_exact` -/
example : ∃ d : DM, d.n ≤ 63 ∧ traceOf (2 ^ d.n) d.raw ≠ 0 := by
  refine ⟨⟨1, true, fun _ => 1⟩, by norm_num, ?_⟩
  simp [traceOf]

end Verif.Props
