import Verif.Proofs.StateOps
import Verif.Proofs.Sampling

/-! # C33, C34, C56, C57: probabilities, sampling and arithmetic of state vectors

`n ≤ 63` is required throughout: the dimension is computed as `1ULL << n`. -/

namespace Verif.Props
open Verif Verif.Spec Verif.Model Verif.Proofs
attribute [-simp] BitVec.getLsbD_eq_getElem

/-- `(|0..0> + |0..01>) / sqrt 2`, as amplitudes -/
noncomputable def samplePsi : U64 → ℂ := fun j => if j = 0#64 ∨ j = 1#64 then ((Real.sqrt 2)⁻¹ : ℝ) else 0

theorem samplePsi_norm : normSq (2 ^ 1) samplePsi = 1 := by
  unfold normSq
  rw [sum_indices (by norm_num)]
  simp [Finset.sum_range_succ, samplePsi, Complex.normSq_ofReal]
  norm_num

/-! ## C33 -/

/-- **C33 (one qubit).** `get_zero_probability(q)` is the sum of `|ψ_j|²` over the indices whose bit `q` is 0, the same in every
slot of a batch; other qubits throw. -/
theorem C33_zero {n q : Nat} (hn : n ≤ 63) (ψ : U64 → ℂ) :
    (q < n → zeroProbability n q ψ = .ok (∑ j ∈ indices (2 ^ n), if j.getLsbD q = false then Complex.normSq (ψ j) else 0)) ∧
    (n ≤ q → ∃ e, zeroProbability n q ψ = .error (.throw e)) :=
  ⟨fun hq => zeroProbability_eq hn hq ψ, fun hq => by unfold zeroProbability; rw [if_pos hq]; exact ⟨_, rfl⟩⟩

/-- **C33 (one qubit, batched).** -/
theorem C33_zero_batched {s : Batch} {q : Nat} (hn : s.n ≤ 63) :
    (q < s.n → s.zeroProbability q = .ok ((List.range s.size).map fun b =>
      ∑ j ∈ indices (2 ^ s.n), if j.getLsbD q = false then Complex.normSq (s.raw b j) else 0)) ∧
    (s.n ≤ q → ∃ e, s.zeroProbability q = .error (.throw e)) :=
  ⟨fun hq => zeroProbability_batch hn hq, fun hq => by unfold Batch.zeroProbability; rw [if_pos hq]; exact ⟨_, rfl⟩⟩

/-- **C33 (patterns).** `get_marginal_probability` is the Born probability of the pattern - the sum of `|ψ_j|²` over exactly the
indices that agree with the pattern on its measured qubits - and patterns of another length or with values above 2 throw. -/
theorem C33_marginal {n : Nat} (hn : n ≤ 63) (ψ : U64 → ℂ) (pattern : List Nat) :
    ((pattern.length = n ∧ ∀ v ∈ pattern, v ≤ 2) → marginalProbability n ψ pattern = .ok (bornProb n ψ pattern)) ∧
    (¬ (pattern.length = n ∧ ∀ v ∈ pattern, v ≤ 2) → ∃ e, marginalProbability n ψ pattern = .error (.throw e)) := by
  refine ⟨fun h => marginalProbability_eq hn ψ h.1 h.2, fun h => marginalProbability_bad ψ ?_⟩
  by_cases hl : pattern.length = n
  · right
    by_contra hc
    push Not at hc
    exact h ⟨hl, hc⟩
  · exact .inl hl

/-- **C33 (patterns, batched).** -/
theorem C33_marginal_batched {s : Batch} (hn : s.n ≤ 63) (pattern : List Nat) :
    ((pattern.length = s.n ∧ ∀ v ∈ pattern, v ≤ 2) →
      s.marginalProbability pattern = .ok ((List.range s.size).map fun b => bornProb s.n (s.raw b) pattern)) ∧
    (¬ (pattern.length = s.n ∧ ∀ v ∈ pattern, v ≤ 2) → ∃ e, s.marginalProbability pattern = .error (.throw e)) := by
  refine ⟨fun h => marginalProbability_batch hn h.1 h.2, fun h => marginalProbability_bad_batch ?_⟩
  by_cases hl : pattern.length = s.n
  · right
    by_contra hc
    push Not at hc
    exact h ⟨hl, hc⟩
  · exact .inl hl

/-- **C33 (distribution).** For a normalised state all these numbers lie in `[0, 1]`, and the marginals of all outcomes of any
list of different qubits, as returned by `get_marginal_probability`, add to 1. -/
theorem C33_distribution {n : Nat} (hn : n ≤ 63) {ψ : U64 → ℂ} (h1 : normSq (2 ^ n) ψ = 1) :
    (∀ q r, zeroProbability n q ψ = .ok r → 0 ≤ r ∧ r ≤ 1) ∧
    (∀ pattern r, marginalProbability n ψ pattern = .ok r → 0 ≤ r ∧ r ≤ 1) ∧
    (∀ ts : List Nat, ts.Nodup → (∀ q ∈ ts, q < n) → ∃ p : Nat → ℝ,
      (∀ x, x < 2 ^ ts.length → marginalProbability n ψ (patternOf n ts x) = .ok (p x)) ∧
      ∑ x ∈ Finset.range (2 ^ ts.length), p x = 1) := by
  refine ⟨fun q r h => ?_, fun pattern r h => ?_, fun ts hnd hlt => ⟨fun x => bornProb n ψ (patternOf n ts x), fun x hx => ?_, ?_⟩⟩
  · by_cases hq : q < n
    · rw [zeroProbability_eq hn hq] at h
      cases h
      exact ⟨bitProb_nonneg .., h1 ▸ bitProb_le ..⟩
    · unfold zeroProbability at h
      rw [if_pos (by omega)] at h
      cases h
  · by_cases hp : pattern.length = n ∧ ∀ v ∈ pattern, v ≤ 2
    · rw [marginalProbability_eq hn ψ hp.1 hp.2] at h
      cases h
      exact ⟨bornProb_nonneg .., h1 ▸ bornProb_le ..⟩
    · obtain ⟨e, he⟩ := (C33_marginal hn ψ pattern).2 hp
      rw [he] at h; cases h
  · refine marginalProbability_eq hn ψ (by simp [patternOf]) ?_
    intro v hv
    simp only [patternOf, List.mem_map] at hv
    obtain ⟨q, _, rfl⟩ := hv
    split
    · have := Bool.toNat_le (x.testBit (ts.idxOf q)); omega
    · omega
  · rw [bornProb_sum hnd hlt, h1]

example : normSq (2 ^ 1) samplePsi = 1 ∧ [0].Nodup ∧ (∀ q ∈ [0], q < 1) ∧ ([1].length = 1 ∧ ∀ v ∈ [1], v ≤ 2) :=
  ⟨samplePsi_norm, by simp, by simp, by simp⟩

/-! ## C34 -/

/-- **C34 (one draw).** The binary search turns the uniform number `r` into the basis index `k` exactly when `r` lies in the
interval `[F(k), F(k+1))`, `F(k)` being the probability of an index below `k`; this interval has length `|ψ_k|²`. -/
theorem C34_draw {n : Nat} (ψ : U64 → ℂ) {r : ℝ} (hr : 0 ≤ r) {k : Nat} (hk : k < 2 ^ n) :
    (drawIndex (stackedProb n ψ) r = .ok k ↔ r ∈ Set.Ico (cumProb ψ k) (cumProb ψ (k + 1))) ∧
    cumProb ψ (k + 1) - cumProb ψ k = Complex.normSq (ψ (BitVec.ofNat 64 k)) := by
  refine ⟨?_, ?_⟩
  · rw [drawIndex_iff ψ hr]
    exact ⟨fun h => ⟨h.2.1, h.2.2 hk⟩, fun h => ⟨le_of_lt hk, h.1, fun _ => h.2⟩⟩
  · unfold cumProb
    rw [Finset.sum_range_succ]; ring

/-- **C34 (normalised states).** With uniform numbers in `[0, 1)`, `sampling(count)` returns exactly one list: entry `i` is the
valid index `k` with `F(k) ≤ r_i < F(k+1)` for the `i`-th draw, and so has non-zero probability. -/
theorem C34_sampling {n : Nat} (hn : n ≤ 63) {ψ : U64 → ℂ} (h1 : normSq (2 ^ n) ψ = 1) (count : Nat) {rnd : Nat → Nat → ℝ}
    (hr : ∀ k i, 0 ≤ rnd k i ∧ rnd k i < 1) :
    ∃ final, Samples n ψ count rnd final ∧ (∀ other, Samples n ψ count rnd other → other = final) ∧ final.length = count ∧
      ∀ i (hi : i < final.length), final[i] < 2 ^ n ∧
        cumProb ψ final[i] ≤ rnd 0 i ∧ rnd 0 i < cumProb ψ (final[i] + 1) ∧ ψ (BitVec.ofNat 64 final[i]) ≠ 0 := by
  obtain ⟨res, hl, hres⟩ := loop_one (n := n) (st := fun _ : Nat => ψ) (alloc := fun t => decide (t < count)) hn
    (fun i => (hr 0 i).1) (List.range count) List.nodup_range (by simp) (fun i t _ => by rw [h1]; exact (hr 0 i).2) (fun _ => 0)
  refine ⟨(List.range count).map res, ⟨res, hl, rfl⟩, ?_, by simp, ?_⟩
  · rintro other ⟨res', hl', rfl⟩
    rw [loop_unique hl hl']
  · intro i hi
    have hi' : i < (List.range count).length := by simpa using hi
    obtain ⟨h, hlt⟩ := hres i hi'
    have hlt' := h.2.2 hlt
    simp only [List.getElem_map]
    refine ⟨hlt, h.2.1, hlt', fun h0 => ?_⟩
    have := (C34_draw ψ (hr 0 i).1 hlt).2
    rw [h0, map_zero] at this
    have := h.2.1
    linarith

example : ∃ rnd : Nat → Nat → ℝ, ∀ k i, 0 ≤ rnd k i ∧ rnd k i < 1 := ⟨fun _ _ => 1 / 2, fun _ _ => by norm_num⟩

/-- **C34 (any state).** Without normalisation (for instance after rounding), whatever `sampling` returns has only valid indices,
each obtained from its own draw (draws are never shared) and of non-zero probability. -/
theorem C34_any_state {n : Nat} (ψ : U64 → ℂ) (count : Nat) {rnd : Nat → Nat → ℝ} (hr : ∀ k i, 0 ≤ rnd k i)
    {final : List Nat} (h : Samples n ψ count rnd final) :
    final.length = count ∧ ∃ draw : Nat → Nat × Nat, (∀ i < count, ∀ j < count, draw i = draw j → i = j) ∧
      ∀ i (hi : i < final.length), final[i] < 2 ^ n ∧ cumProb ψ final[i] ≤ rnd (draw i).1 (draw i).2 ∧
        rnd (draw i).1 (draw i).2 < cumProb ψ (final[i] + 1) ∧ ψ (BitVec.ofNat 64 final[i]) ≠ 0 := by
  obtain ⟨res, hl, rfl⟩ := h
  obtain ⟨-, draw, -, d2, d3⟩ := loop_spec (st := fun _ : Nat => ψ) hr hl List.nodup_range (by simp)
  refine ⟨by simp, draw, fun i hi j hj e => d2 i (by simpa using hi) j (by simpa using hj) e, ?_⟩
  intro i hi
  obtain ⟨hlt, h⟩ := d3 i (by simpa using hi)
  have hlt' := h.2.2 hlt
  simp only [List.getElem_map, List.getElem_range]
  refine ⟨hlt, h.2.1, hlt', fun h0 => ?_⟩
  have := (C34_draw ψ (hr 0 0) hlt).2
  rw [h0, map_zero] at this
  have := h.2.1
  linarith

/-- **C34 (batched).** In every slot the samples of a normalised state come from its own draws and its own distribution. -/
theorem C34_batched {s : Batch} (hn : s.n ≤ 63) (h1 : ∀ b, b < s.size → normSq (2 ^ s.n) (s.raw b) = 1) (count : Nat)
    {rnd : Nat → Nat → ℝ} (hr : ∀ k i, 0 ≤ rnd k i ∧ rnd k i < 1) :
    ∃ final, s.Samples count rnd final ∧ (∀ other, s.Samples count rnd other → other = final) ∧ final.length = s.size ∧
      ∃ draw : Nat × Nat → Nat × Nat,
        (∀ b < s.size, ∀ i < count, ∀ b' < s.size, ∀ i' < count, draw (b, i) = draw (b', i') → b = b' ∧ i = i') ∧
        ∀ b < s.size, ∀ i < count, ∃ k, (final[b]?.bind fun l => l[i]?) = some k ∧ k < 2 ^ s.n ∧
          cumProb (s.raw b) k ≤ rnd (draw (b, i)).1 (draw (b, i)).2 ∧
          rnd (draw (b, i)).1 (draw (b, i)).2 < cumProb (s.raw b) (k + 1) ∧ s.raw b (BitVec.ofNat 64 k) ≠ 0 := by
  have hmem : ∀ t : Nat × Nat, t ∈ ((List.range s.size).flatMap fun b => (List.range count).map fun j => (b, j)) ↔
      t.1 < s.size ∧ t.2 < count := by
    rintro ⟨b, j⟩
    simp only [List.mem_flatMap, List.mem_range, List.mem_map, Prod.mk.injEq]
    constructor
    · rintro ⟨b', hb, j', hj, rfl, rfl⟩; exact ⟨hb, hj⟩
    · rintro ⟨hb, hj⟩; exact ⟨b, hb, j, hj, rfl, rfl⟩
  have hnd : ((List.range s.size).flatMap fun b => (List.range count).map fun j => (b, j)).Nodup := by
    rw [List.nodup_flatMap]
    refine ⟨fun b _ => List.Nodup.map (fun a c e => (Prod.ext_iff.1 e).2) List.nodup_range, ?_⟩
    refine List.nodup_range.pairwise_of_forall_ne ?_
    intro a _ b _ hab t ha hb
    simp only [List.mem_map] at ha hb
    obtain ⟨_, _, rfl⟩ := ha
    obtain ⟨_, _, e⟩ := hb
    exact hab (Prod.ext_iff.1 e).1.symm
  have hal : ∀ t ∈ ((List.range s.size).flatMap fun b => (List.range count).map fun j => (b, j)),
      decide (t.1 < s.size ∧ t.2 < count) = true := fun t ht => by simpa using (hmem t).1 ht
  obtain ⟨res, hl, -⟩ := loop_one (n := s.n) (st := fun t : Nat × Nat => s.raw t.1)
    (alloc := fun t => decide (t.1 < s.size ∧ t.2 < count)) hn (fun i => (hr 0 i).1) _ hnd hal
    (fun i t ht => by rw [h1 t.1 ((hmem t).1 ht).1]; exact (hr 0 i).2) (fun _ => 0)
  obtain ⟨-, draw, -, d2, d3⟩ := loop_spec (st := fun t : Nat × Nat => s.raw t.1) (fun k i => (hr k i).1) hl hnd hal
  refine ⟨_, ⟨res, hl, rfl⟩, ?_, by simp, draw, ?_, ?_⟩
  · rintro other ⟨res', hl', rfl⟩
    rw [loop_unique hl hl']
  · intro b hb i hi b' hb' i' hi' e
    have := d2 (b, i) ((hmem _).2 ⟨hb, hi⟩) (b', i') ((hmem _).2 ⟨hb', hi'⟩) e
    exact Prod.ext_iff.1 this
  · intro b hb i hi
    obtain ⟨hlt, h⟩ := d3 (b, i) ((hmem _).2 ⟨hb, hi⟩)
    have hlt' := h.2.2 hlt
    refine ⟨res (b, i), by simp [hb, hi], hlt, h.2.1, hlt', fun h0 => ?_⟩
    have := (C34_draw (s.raw b) (hr 0 0).1 hlt).2
    rw [h0, map_zero] at this
    have := h.2.1
    dsimp only at hlt'
    linarith

/-- **C34 (zero vector).** Outside the property: on a state of norm zero `sampling` never returns, whatever the draws. -/
theorem C34_zero_norm_never_returns {n : Nat} (hn : n ≤ 63) {ψ : U64 → ℂ} (h0 : normSq (2 ^ n) ψ = 0) {count : Nat}
    (hc : 0 < count) {rnd : Nat → Nat → ℝ} (hr : ∀ k i, 0 ≤ rnd k i) (final : List Nat) : ¬ Samples n ψ count rnd final := by
  rintro ⟨res, hl, -⟩
  refine loop_stuck (st := fun _ : Nat => ψ) hn hr ?_ List.nodup_range (by simp) (fun k i _ _ => by rw [h0]; exact hr k i) 0 _ _ hl
  intro e
  have := congrArg List.length e
  simp at this
  omega

example : normSq (2 ^ 3) (fun _ => 0) = 0 := by simp [normSq]

/-! ## C56 -/

/-- **C56 (norm and inner product).** -/
theorem C56_norm_inner {n n' : Nat} (hn : n ≤ 63) (a b : U64 → ℂ) :
    squaredNorm n a = .ok (∑ j ∈ indices (2 ^ n), Complex.normSq (a j)) ∧
    innerProduct n n a b = .ok (∑ j ∈ indices (2 ^ n), (starRingEnd ℂ) (a j) * b j) ∧
    (n ≠ n' → ∃ e, innerProduct n n' a b = .error (.throw e)) :=
  ⟨squaredNorm_eq hn a, innerProduct_eq hn a b, fun h => innerProduct_bad h a b⟩

/-- **C56 (normalize).** Under every schedule `normalize` turns a state of non-zero norm into the proportional state of norm 1;
on the zero vector it divides by zero. -/
theorem C56_normalize {n : Nat} (hn : n ≤ 63) (ψ : U64 → ℂ) :
    (normSq (2 ^ n) ψ ≠ 0 → ∃ ψ', Normalizes n ψ ψ' ∧ (∀ other, Normalizes n ψ other → other = ψ') ∧
      normSq (2 ^ n) ψ' = 1 ∧ ∃ c : ℝ, 0 < c ∧ ∀ j, j.toNat < 2 ^ n → ψ' j = c * ψ j) ∧
    (normSq (2 ^ n) ψ = 0 → normalizeDev n ψ = .error (.ub "division by zero")) := by
  refine ⟨fun h => ⟨_, normalizes hn h, fun other ho => Proofs.Normalizes.unique ho (normalizes hn h), ?_, ?_⟩, normalizes_zero hn⟩
  · have hpos := lt_of_le_of_ne (normSq_nonneg (2 ^ n) ψ) (Ne.symm h)
    have e : (fun j => if InState (2 ^ n) j then ψ j / (Real.sqrt (normSq (2 ^ n) ψ) : ℂ) else ψ j) =
        fun j => if InState (2 ^ n) j then ((Real.sqrt (normSq (2 ^ n) ψ))⁻¹ : ℝ) * ψ j else ψ j := by
      funext j
      split
      · rw [Complex.ofReal_inv]; field_simp
      · rfl
    rw [e, normSq_smul, Complex.normSq_ofReal, ← mul_inv, Real.mul_self_sqrt (le_of_lt hpos), inv_mul_cancel₀ h]
  · have hpos := Real.sqrt_pos.2 (lt_of_le_of_ne (normSq_nonneg (2 ^ n) ψ) (Ne.symm h))
    refine ⟨(Real.sqrt (normSq (2 ^ n) ψ))⁻¹, inv_pos.2 hpos, fun j hj => ?_⟩
    rw [if_pos (show InState (2 ^ n) j from hj), Complex.ofReal_inv]; field_simp

example : normSq (2 ^ 1) samplePsi ≠ 0 := by rw [samplePsi_norm]; norm_num

/-- **C56 (linear operations).** `multiply_coef` (also on batches), `add_state_vector_with_coef` for equally large states and
`set_computational_basis` have, under every schedule, exactly the documented effect. -/
theorem C56_linear_partial {n : Nat} (hn : n ≤ 63) (c : ℂ) (ψ φ : U64 → ℂ) :
    (∀ B, B * 2 ^ n ≤ 2 ^ 64 → DRuns (B * 2 ^ n) (multiplyCoef B n c) ψ (onState (B * 2 ^ n) (fun v j => c * v j) ψ)) ∧
    AddsWithCoef n n c ψ φ (onState (2 ^ n) (fun v j => v j + c * φ j) ψ) ∧
    (∀ b, b < 2 ^ n → ∃ dev, setBasis n b = .ok dev ∧
      DRuns (2 ^ n) dev ψ (onState (2 ^ n) (fun _ j => if j.toNat = b then 1 else 0) ψ)) ∧
    (∀ b, 2 ^ n ≤ b → ∃ e, setBasis n b = .error (.throw e)) ∧
    DRuns (2 ^ n) (setZeroNorm n) ψ (onState (2 ^ n) (fun _ _ => 0) ψ) := by
  refine ⟨fun B hB => ?_, addWithCoef_runs hn (le_refl n) c ψ φ, fun b hb => ?_, fun b hb => ?_, fill_runs (pow64 hn) _ ψ⟩
  · have := elementwise_runs hB (fun _ a => a * c) ψ
    have e : (fun j => if InState (B * 2 ^ n) j then ψ j * c else ψ j) = onState (B * 2 ^ n) (fun v j => c * v j) ψ := by
      funext j
      show _ = if j.toNat < B * 2 ^ n then c * ψ j else ψ j
      rw [mul_comm c]; rfl
    rw [e] at this
    exact this
  · refine ⟨_, by unfold setBasis; rw [if_neg (by omega)], ?_⟩
    have := fill_runs (pow64 hn) (fun i => if i = BitVec.ofNat 64 b then (1 : ℂ) else 0) ψ
    have e : (fun j => if InState (2 ^ n) j then (if j = BitVec.ofNat 64 b then (1 : ℂ) else 0) else ψ j) =
        onState (2 ^ n) (fun _ j => if j.toNat = b then 1 else 0) ψ := by
      funext j
      show _ = if j.toNat < 2 ^ n then (if j.toNat = b then (1 : ℂ) else 0) else ψ j
      have hiff : j = BitVec.ofNat 64 b ↔ j.toNat = b := by
        rw [← toNat_ofNat_pow hn hb]
        constructor
        · intro e; rw [e, toNat_ofNat_pow hn hb]; rw [toNat_ofNat_pow hn hb]
        · intro e; apply BitVec.eq_of_toNat_eq; rw [e]; simp
      simp only [hiff]; rfl
    rw [e] at this
    exact this
  · unfold setBasis; rw [if_pos hb]; exact ⟨_, rfl⟩

/-- **C56 (counterexample).** `StateVector::add_state_vector_with_coef` does not compare the sizes: a smaller state is read outside
its allocation (the batched version throws). -/
theorem C56_counterexample_size {n n' : Nat} (hn : n ≤ 63) (h : n' < n) (c : ℂ) (ψ φ ψ' : U64 → ℂ) :
    ¬ AddsWithCoef n n' c ψ φ ψ' := addWithCoef_small hn h c ψ φ ψ'

/-- **C56 (batched normalize).** Every slot is normalised on its own. -/
theorem C56_normalize_batched {s : Batch} (hn : s.n ≤ 63) (h : ∀ b, b < s.size → normSq (2 ^ s.n) (s.raw b) ≠ 0) :
    ∃ s', s.Normalizes s' ∧ ∀ b, b < s.size → normSq (2 ^ s.n) (s'.raw b) = 1 ∧
      ∃ c : ℝ, 0 < c ∧ ∀ j, j.toNat < 2 ^ s.n → s'.raw b j = c * s.raw b j := by
  classical
  have key : ∀ b : Nat, ∃ ψ', b < s.size → (Normalizes s.n (s.raw b) ψ' ∧ normSq (2 ^ s.n) ψ' = 1 ∧
      ∃ c : ℝ, 0 < c ∧ ∀ j, j.toNat < 2 ^ s.n → ψ' j = c * s.raw b j) := by
    intro b
    by_cases hb : b < s.size
    · obtain ⟨ψ', h1, -, h2, h3⟩ := (C56_normalize hn (s.raw b)).1 (h b hb)
      exact ⟨ψ', fun _ => ⟨h1, h2, h3⟩⟩
    · exact ⟨s.raw b, fun h => absurd h hb⟩
  choose raw hraw using key
  exact ⟨⟨s.n, s.size, raw⟩, ⟨rfl, rfl, fun b hb => (hraw b hb).1⟩, fun b hb => (hraw b hb).2⟩

/-! ## C57 -/

/-- **C57 (single states).** `get_computational_basis_entropy` is the Shannon entropy of the distribution `|ψ_j|²`. -/
theorem C57_entropy_partial {n : Nat} (hn : n ≤ 63) (ψ : U64 → ℂ) :
    entropy n ψ = .ok (shannon n ψ) ∧
    ∀ s : Batch, s.n = n → (∀ b, b < s.size → ∀ j, j.toNat < 2 ^ n → 1 / 10 ^ 15 ≤ Complex.normSq (s.raw b j)) →
      s.entropy = .ok ((List.range s.size).map fun b => shannon n (s.raw b)) := by
  refine ⟨entropy_eq hn ψ, ?_⟩
  rintro s rfl h
  unfold Batch.entropy
  rw [perSlot_ok (g := fun b => shannon s.n (s.raw b))]
  intro b hb
  rw [← entropy_eq hn]
  unfold entropy
  have e : ∀ i, i < 2 ^ s.n → (do
      let p ← readSq (2 ^ s.n) (s.raw b) (BitVec.ofNat 64 i)
      let prob := max p (1 / 10 ^ 15)
      pure (-prob * Real.logb 2 prob) : Res ℝ) = .ok (-Complex.normSq (s.raw b (BitVec.ofNat 64 i)) *
        Real.logb 2 (Complex.normSq (s.raw b (BitVec.ofNat 64 i)))) := by
    intro i hi
    have hin : (BitVec.ofNat 64 i).toNat < 2 ^ s.n := by rw [toNat_ofNat_pow hn hi]; exact hi
    rw [readSq_ok hin, ok_bind]
    dsimp only
    rw [max_eq_left (h b hb _ hin)]; rfl
  rw [reduceSum_ok e, reduceSum_ok]
  intro i hi
  have hin : (BitVec.ofNat 64 i).toNat < 2 ^ s.n := by rw [toNat_ofNat_pow hn hi]; exact hi
  rw [readSq_ok hin, ok_bind, if_pos (lt_of_lt_of_le (by positivity) (h b hb _ hin))]; rfl

/-- a batch of one state `|0>` -/
noncomputable def zeroBatch : Batch := ⟨1, 1, fun _ j => if j = 0#64 then 1 else 0⟩

/-- **C57 (counterexample).** The batched version clamps every probability from below by `10⁻¹⁵`, so the entropy of `|0>` is not 0. -/
theorem C57_counterexample : ∃ r, zeroBatch.entropy = .ok [r] ∧ r ≠ shannon 1 (zeroBatch.raw 0) := by
  have hs : shannon 1 (zeroBatch.raw 0) = 0 := by
    unfold shannon
    rw [sum_indices (by norm_num)]
    simp [Finset.sum_range_succ, zeroBatch]
  have hr : ∀ i, i < 2 ^ 1 → (do
      let p ← readSq (2 ^ 1) (zeroBatch.raw 0) (BitVec.ofNat 64 i)
      let prob := max p (1 / 10 ^ 15)
      pure (-prob * Real.logb 2 prob) : Res ℝ) = .ok (if i = 0 then 0 else -(1 / 10 ^ 15) * Real.logb 2 (1 / 10 ^ 15)) := by
    intro i hi
    have : i = 0 ∨ i = 1 := by omega
    rcases this with rfl | rfl
    · rw [readSq_ok (by simp), ok_bind]
      simp only [zeroBatch]
      have : max (1 : ℝ) (1 / 10 ^ 15) = 1 := max_eq_left (by norm_num)
      simp only [if_true, map_one, this]
      simp [pure, Except.pure]
    · rw [readSq_ok (by simp), ok_bind]
      have : max (0 : ℝ) (1 / 10 ^ 15) = 1 / 10 ^ 15 := max_eq_right (by norm_num)
      have h0 : zeroBatch.raw 0 (BitVec.ofNat 64 1) = 0 := by simp [zeroBatch]
      simp only [h0, map_zero, this]
      rfl
  refine ⟨∑ i ∈ Finset.range (2 ^ 1), (if i = 0 then 0 else -(1 / 10 ^ 15) * Real.logb 2 (1 / 10 ^ 15)), ?_, ?_⟩
  · unfold Batch.entropy
    rw [perSlot_ok (g := fun _ => ∑ i ∈ Finset.range (2 ^ 1), (if i = 0 then 0 else -(1 / 10 ^ 15) * Real.logb 2 (1 / 10 ^ 15)))]
    · rfl
    · intro b hb
      have : b = 0 := by simp only [zeroBatch] at hb; omega
      subst this
      exact reduceSum_ok hr
  · rw [hs]
    simp only [pow_one, Finset.sum_range_succ, Finset.sum_range_zero]
    have : Real.logb 2 (1 / 10 ^ 15) < 0 := Real.logb_neg (by norm_num) (by norm_num) (by norm_num)
    have h2 : (0 : ℝ) < 1 / 10 ^ 15 := by norm_num
    simp only [if_true, one_ne_zero, if_false]
    nlinarith

example : ∀ j : U64, j.toNat < 2 ^ 1 → (1 : ℝ) / 10 ^ 15 ≤ Complex.normSq (((fun _ : U64 => (1 : ℂ)) j)) := by
  intro j _; simp; norm_num

end Verif.Props
