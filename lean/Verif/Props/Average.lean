import Verif.Proofs.EnsemblePaths
import Verif.Props.Operator
import Verif.Props.Noise
import Verif.Proofs.Vec
import Verif.Proofs.SamplingLaw
import Verif.Proofs.DensityRead
import Mathlib.Probability.Independence.InfinitePi

/-! # C74, C75: measurements, random gates and sampling follow the rules of quantum mechanics on average

The numbers delivered by `uniform()` are independent and uniformly distributed random variables `rnd i` on some probability space. -/

namespace Verif.Props
open Verif Verif.Spec Verif.Model Verif.Proofs MeasureTheory ProbabilityTheory
attribute [-simp] BitVec.getLsbD_eq_getElem

/-- such random variables exist -/
theorem uniformDraws_exist : ∃ (μ : Measure (ℕ → ℝ)), UniformDraws μ (fun i ω => ω i) := by
  have : IsProbabilityMeasure (volume.restrict (Set.Ico (0 : ℝ) 1)) := ⟨by simp⟩
  refine ⟨Measure.infinitePi fun _ : ℕ => volume.restrict (Set.Ico (0 : ℝ) 1), fun i => measurable_pi_apply i, ?_, fun i => ?_⟩
  · exact iIndepFun_infinitePi (X := fun _ x => x) fun _ => measurable_id
  · exact Measure.infinitePi_map_eval _ i

/-! ## C74 -/

/-- the assumptions on a circuit: the lines are well formed and fit, all gates are unitary, measured qubits are not used again without
reset, conditions can be evaluated, the probabilities of random choices add up to 1 -/
structure Regular (ls : List Line) (C : Circuit) (n : Nat) (θ : String → Option ℝ) (len : Nat) : Prop where
  circuit : CircuitOf ls C n
  keys : KeysGiven ls θ
  unitary : ∀ l ∈ ls, Unitaries l.instr
  register : ∀ l ∈ ls, RegisterOK len l
  clear : Clear [] ls
  fair : ∀ l ∈ ls, l.instr.Fair

theorem Regular.lineOK {ls : List Line} {C : Circuit} {n len : Nat} {θ : String → Option ℝ} (h : Regular ls C n θ len) :
    ∀ l ∈ ls, LineOK n θ len l := by
  intro l hl
  obtain ⟨gs, hgs, -⟩ := buildCircuit_ok h.circuit.built
  obtain ⟨k, hk, rfl⟩ := List.mem_iff_getElem.1 hl
  obtain ⟨g, -, hg⟩ := (mapM_get _ hgs).2 k _ (List.getElem?_eq_getElem hk)
  exact ⟨⟨g, hg⟩, h.circuit.args _ hl, h.circuit.qubits _ hl, h.unitary _ hl, h.keys _ hl, h.register _ hl, h.fair _ hl⟩

variable {Ω : Type*} [MeasurableSpace Ω] {μ : Measure Ω} {rnd : ℕ → Ω → ℝ}

/-- the average of a quantity that depends on the state like a density matrix is its sum over the branches -/
theorem average_quadratic {ls : List Line} {C : Circuit} {L n : Nat} {θ : String → Option ℝ} {ψ : U64 → ℂ} {reg : List Bool}
    (h : Regular ls C n θ reg.length) (hL : LanesOK L) (hn : n < 64) (hnorm : normSq (2 ^ n) ψ = 1) (hd : UniformDraws μ rnd)
    {final : Ω → Context} (hf : ∀ᵐ ω ∂μ, C.RunsOn L n (fun i => rnd i ω) θ ψ reg (final ω) none) {D : Branch → ℂ} (hD : Quadratic n D) :
    Integrable (fun ω => D ⟨(final ω).psi, (final ω).reg⟩) μ ∧
    ∫ ω, D ⟨(final ω).psi, (final ω).reg⟩ ∂μ = ((branches n θ ls ⟨ψ, reg⟩).map D).sum := by
  obtain ⟨P, hP, hq⟩ := circuit_paths hn h.clear (s := ⟨ψ, reg, []⟩) h.lineOK hnorm (by simp)
  have hx := expect_paths hd P hP.inside (fun s => D (branchOf s)) (fun ω => D ⟨(final ω).psi, (final ω).reg⟩) (by
    filter_upwards [hf, draws_unit hd] with ω hrun hunit
    obtain ⟨p, -, us, ⟨uss, rfl, hh⟩, -, hdr, hG⟩ := hP.unique (fun i => rnd i ω) hunit 0
    rw [hG fun p => D (branchOf p.2)]
    obtain ⟨hc, -⟩ := (C38_in_order h.circuit hL hn h.keys hh (fun i hi => by have := hdr i hi; rwa [Nat.zero_add] at this) _ _).1 hrun
    rw [hc]; rfl)
  exact ⟨hx.1, hx.2.trans (hq D hD)⟩

/-- **C74.** Almost every sequence of random numbers determines exactly one run of the circuit. -/
theorem C74_runs {ls : List Line} {C : Circuit} {L n : Nat} {θ : String → Option ℝ} {ψ : U64 → ℂ} {reg : List Bool}
    (h : Regular ls C n θ reg.length) (hL : LanesOK L) (hn : n < 64) (hnorm : normSq (2 ^ n) ψ = 1) (hd : UniformDraws μ rnd) :
    ∃ final : Ω → Context, ∀ᵐ ω ∂μ, normSq (2 ^ n) (final ω).psi = 1 ∧ (final ω).reg.length = reg.length ∧
      ∀ c f, C.RunsOn L n (fun i => rnd i ω) θ ψ reg c f ↔ c = final ω ∧ f = none := by
  have hex : ∀ ω, ∃ c : Context, (∀ i, 0 ≤ rnd i ω ∧ rnd i ω < 1) → normSq (2 ^ n) c.psi = 1 ∧ c.reg.length = reg.length ∧
      ∀ c' f, C.RunsOn L n (fun i => rnd i ω) θ ψ reg c' f ↔ c' = c ∧ f = none := by
    intro ω
    by_cases hr : ∀ i, 0 ≤ rnd i ω ∧ rnd i ω < 1
    · obtain ⟨c, h1, h2, h3, -⟩ := C38_total h.circuit hL hn h.keys h.unitary h.register h.clear hnorm hr
      exact ⟨c, fun _ => ⟨h1, h2, h3⟩⟩
    · exact ⟨⟨ψ, reg, 0⟩, fun h => absurd h hr⟩
  choose final hfinal using hex
  refine ⟨final, ?_⟩
  filter_upwards [draws_unit hd] with ω hunit
  exact hfinal ω hunit

/-- **C74 (density matrix).** The average of `|ψ'⟩⟨ψ'|` over the random numbers, taken over the runs that end with the register `r`,
is the density matrix that quantum mechanics assigns to the circuit: gates act as `ρ ↦ UρU†`, random choices as `ρ ↦ ∑ p_k U_k ρ U_k†`,
a measurement as `ρ ↦ P_b ρ P_b` together with the entry `b` in the register, and conditional lines act on the parts of the mixture in
which the condition holds. -/
theorem C74_density {ls : List Line} {C : Circuit} {L n : Nat} {θ : String → Option ℝ} {ψ : U64 → ℂ} {reg : List Bool}
    (h : Regular ls C n θ reg.length) (hL : LanesOK L) (hn : n < 64) (hnorm : normSq (2 ^ n) ψ = 1) (hd : UniformDraws μ rnd)
    {final : Ω → Context} (hf : ∀ᵐ ω ∂μ, C.RunsOn L n (fun i => rnd i ω) θ ψ reg (final ω) none) (r : List Bool) {i j : U64}
    (hi : i.toNat < 2 ^ n) (hj : j.toNat < 2 ^ n) :
    Integrable (fun ω => if (final ω).reg = r then (final ω).psi i * (starRingEnd ℂ) ((final ω).psi j) else 0) μ ∧
    ∫ ω, (if (final ω).reg = r then (final ω).psi i * (starRingEnd ℂ) ((final ω).psi j) else 0) ∂μ =
      density (branches n θ ls ⟨ψ, reg⟩) r i j :=
  average_quadratic h hL hn hnorm hd hf (quadratic_density hi hj r)

theorem quadratic_norm {n : Nat} (hn : n < 64) (r : List Bool) :
    Quadratic n fun b => if b.reg = r then (normSq (2 ^ n) b.psi : ℂ) else 0 := by
  intro c φ ψ r' h
  dsimp only
  split
  · rw [← Complex.ofReal_mul]
    congr 1
    unfold normSq
    rw [Finset.mul_sum]
    refine Finset.sum_congr rfl fun j hj => ?_
    rw [h j ((mem_indices (pow64 (by omega))).1 hj), Complex.normSq_mul]
  · simp

/-- **C74 (register).** The probability that a run ends with the register `r` is the sum of the squared norms of the branches with that
register. -/
theorem C74_register {ls : List Line} {C : Circuit} {L n : Nat} {θ : String → Option ℝ} {ψ : U64 → ℂ} {reg : List Bool}
    (h : Regular ls C n θ reg.length) (hL : LanesOK L) (hn : n < 64) (hnorm : normSq (2 ^ n) ψ = 1) (hd : UniformDraws μ rnd)
    {final : Ω → Context} (hf : ∀ᵐ ω ∂μ, C.RunsOn L n (fun i => rnd i ω) θ ψ reg (final ω) none) (r : List Bool) :
    μ.real {ω | (final ω).reg = r} = registerProb n (branches n θ ls ⟨ψ, reg⟩) r := by
  classical
  have hprob := draws_prob hd
  obtain ⟨hi, hint⟩ := average_quadratic h hL hn hnorm hd hf (quadratic_norm hn r)
  have hone : ∀ᵐ ω ∂μ, (if (final ω).reg = r then (normSq (2 ^ n) (final ω).psi : ℂ) else 0) =
      Set.indicator {ω | (final ω).reg = r} (fun _ => (1 : ℂ)) ω := by
    obtain ⟨fin, hfin⟩ := C74_runs h hL hn hnorm hd
    filter_upwards [hf, hfin] with ω hrun hω
    rw [((hω.2.2 _ _).1 hrun).1]
    simp only [Set.indicator, hω.1]
    by_cases hr : (fin ω).reg = r
    · rw [if_pos hr, if_pos (by show (final ω).reg = r; rw [((hω.2.2 _ _).1 hrun).1]; exact hr)]; simp
    · rw [if_neg hr, if_neg (by show ¬ (final ω).reg = r; rw [((hω.2.2 _ _).1 hrun).1]; exact hr)]
  have hnull : NullMeasurableSet {ω | (final ω).reg = r} μ := by
    rw [← aemeasurable_indicator_const_iff (1 : ℂ)]
    exact (hi.1.aemeasurable).congr hone
  have hval : ∫ ω, (if (final ω).reg = r then (normSq (2 ^ n) (final ω).psi : ℂ) else 0) ∂μ = (μ.real {ω | (final ω).reg = r} : ℂ) := by
    rw [integral_congr_ae hone, integral_indicator₀ hnull, setIntegral_const]
    simp
  have hreg : ((branches n θ ls ⟨ψ, reg⟩).map fun b => if b.reg = r then (normSq (2 ^ n) b.psi : ℂ) else 0).sum =
      (registerProb n (branches n θ ls ⟨ψ, reg⟩) r : ℂ) := by
    unfold registerProb
    generalize branches n θ ls ⟨ψ, reg⟩ = bs
    induction bs with
    | nil => simp
    | cons b bs ih =>
      simp only [List.map_cons, List.sum_cons, ih]
      split <;> simp
  have := hval.symm.trans (hint.trans hreg)
  exact_mod_cast this

theorem quadratic_expectation {n : Nat} (hn : n < 64) {o : Op} (ho : OpFits o n) :
    Quadratic n fun b => Spec.inner (2 ^ n) b.psi (sumOperator o.terms b.psi) := by
  intro c φ ψ r h
  have hs : ∀ j : U64, j.toNat < 2 ^ n → sumOperator o.terms φ j = c * sumOperator o.terms ψ j := by
    intro j hj
    rw [sumOperator_eq, sumOperator_eq]
    have := opAct_local (n := n) (by omega) (fun p hp => opFits_x ho p hp) (ψ := φ) (φ := fun j => c * ψ j) h hj
    rw [this, opAct_smul]
  simp only [Spec.inner]
  rw [Finset.mul_sum]
  refine Finset.sum_congr rfl fun j hj => ?_
  have hj := (mem_indices (pow64 (by omega))).1 hj
  rw [h j hj, hs j hj, map_mul, Complex.normSq_eq_conj_mul_self]
  ring

/-- **C74 (expectation values).** The average of the expectation value of an observable in the final state is its expectation value in
the mixture: the sum over the branches. -/
theorem C74_expectation {ls : List Line} {C : Circuit} {L n : Nat} {θ : String → Option ℝ} {ψ : U64 → ℂ} {reg : List Bool}
    (h : Regular ls C n θ reg.length) (hL : LanesOK L) (hn : n < 64) (hnorm : normSq (2 ^ n) ψ = 1) (hd : UniformDraws μ rnd)
    {final : Ω → Context} (hf : ∀ᵐ ω ∂μ, C.RunsOn L n (fun i => rnd i ω) θ ψ reg (final ω) none) {o : Op} (ho : OpFits o n) :
    ∫ ω, Spec.inner (2 ^ n) (final ω).psi (sumOperator o.terms (final ω).psi) ∂μ =
      ((branches n θ ls ⟨ψ, reg⟩).map fun b => Spec.inner (2 ^ n) b.psi (sumOperator o.terms b.psi)).sum :=
  (average_quadratic h hL hn hnorm hd hf (quadratic_expectation hn ho)).2

/-- **C74 (a measurement).** A single measurement finds `b` with the probability that the Born rule gives. -/
theorem C74_born {q cbit : Nat} {reset : Bool} {C : Circuit} {L n : Nat} {θ : String → Option ℝ} {ψ : U64 → ℂ} {reg : List Bool}
    (h : Regular [⟨.measure q cbit reset, none⟩] C n θ reg.length) (hL : LanesOK L) (hn : n < 64) (hnorm : normSq (2 ^ n) ψ = 1)
    (hd : UniformDraws μ rnd) {final : Ω → Context}
    (hf : ∀ᵐ ω ∂μ, C.RunsOn L n (fun i => rnd i ω) θ ψ reg (final ω) none) (b : Bool) :
    μ.real {ω | (final ω).reg = reg.set cbit b} = bitProb n ψ q b := by
  have hq : q < n := h.circuit.qubits _ (List.mem_singleton_self _) q (by simp [Instr.qubits])
  have hc : cbit < reg.length := (h.register _ (List.mem_singleton_self _)).1 q cbit reset rfl
  have hne : reg.set cbit (!b) ≠ reg.set cbit b := by
    intro e
    have := congrArg (fun l => l[cbit]?) e
    simp [hc] at this
  have hnb : normSq (2 ^ n) (onState (2 ^ n) (measured q b reset) ψ) = bitProb n ψ q b := by
    by_cases h0 : bitProb n ψ q b = 0
    · rw [h0]
      have hz : ∀ j : U64, j.toNat < 2 ^ n → j.getLsbD q = b → ψ j = 0 := by
        intro j hj hjb
        unfold bitProb at h0
        rw [Finset.sum_eq_zero_iff_of_nonneg (fun j _ => by split <;> [exact Complex.normSq_nonneg _; exact le_rfl])] at h0
        have := h0 j ((mem_indices (pow64 (by omega))).2 hj)
        rw [if_pos hjb] at this
        exact Complex.normSq_eq_zero.1 this
      unfold normSq
      refine Finset.sum_eq_zero fun j hj => ?_
      have hj := (mem_indices (pow64 (by omega))).1 hj
      rw [show onState (2 ^ n) (measured q b reset) ψ j = _ from if_pos hj]
      unfold measured
      split
      · split
        · rw [hz _ (setBit_lt (by omega) hq hj b) (by rw [getLsbD_setBit _ (by omega), if_pos rfl]), map_zero]
        · simp
      · split
        · rw [hz j hj (by assumption), map_zero]
        · simp
    · have hp : 0 ≤ bitProb n ψ q b := bitProb_nonneg n ψ q b
      have hs : (Real.sqrt (bitProb n ψ q b) : ℂ) ≠ 0 := by
        rw [Ne, Complex.ofReal_eq_zero, Real.sqrt_eq_zero hp]; exact h0
      have h1 := (C35_repeatable (by omega) hq b reset ψ h0).1
      have h2 : normSq (2 ^ n) (onState (2 ^ n) (measured q b reset) ψ) =
          bitProb n ψ q b * normSq (2 ^ n) (onState (2 ^ n) (afterMeasurement n q b reset) ψ) := by
        unfold normSq
        rw [Finset.mul_sum]
        refine Finset.sum_congr rfl fun j hj => ?_
        have hj := (mem_indices (pow64 (by omega))).1 hj
        have : onState (2 ^ n) (measured q b reset) ψ j = (Real.sqrt (bitProb n ψ q b) : ℂ) * onState (2 ^ n) (afterMeasurement n q b reset) ψ j := by
          rw [show onState (2 ^ n) (measured q b reset) ψ j = _ from if_pos hj,
            show onState (2 ^ n) (afterMeasurement n q b reset) ψ j = _ from if_pos hj]
          unfold measured afterMeasurement
          split <;> split
          · field_simp
          · simp
          · field_simp
          · simp
        rw [this, Complex.normSq_mul, Complex.normSq_ofReal, Real.mul_self_sqrt hp]
      rw [h2, h1, mul_one]
  rw [C74_register h hL hn hnorm hd hf]
  simp only [branches, Line.split, Instr.split, registerProb]
  cases b with
  | false => simp at hne hnb ⊢; simp [hne, hnb]
  | true => simp at hne hnb ⊢; simp [hne, hnb]

/-- **C74 (a random choice).** On average a probabilistic gate is the channel `ρ ↦ ∑ p_k U_k ρ U_k†`. -/
theorem C74_channel {ps : List ℝ} {ds : List GateDesc} {C : Circuit} {L n : Nat} {θ : String → Option ℝ} {ψ : U64 → ℂ} {reg : List Bool}
    (h : Regular [⟨.choice ps ds, none⟩] C n θ reg.length) (hL : LanesOK L) (hn : n < 64) (hnorm : normSq (2 ^ n) ψ = 1)
    (hd : UniformDraws μ rnd) {final : Ω → Context}
    (hf : ∀ᵐ ω ∂μ, C.RunsOn L n (fun i => rnd i ω) θ ψ reg (final ω) none) {i j : U64} (hi : i.toNat < 2 ^ n) (hj : j.toNat < 2 ^ n) :
    ∫ ω, (final ω).psi i * (starRingEnd ℂ) ((final ω).psi j) ∂μ =
      ((ps.zip ds).map fun pd => (pd.1 : ℂ) * (operatorOf pd.2 ψ i * (starRingEnd ℂ) (operatorOf pd.2 ψ j))).sum := by
  have hps : ∀ p ∈ ps, 0 ≤ p := by
    have hl := h.lineOK _ (List.mem_singleton_self _)
    obtain ⟨g, hg⟩ := hl.built
    exact (alt_facts hg hl.ok (n := n) hl.unitary hl.keys fun q c r e => by cases e).2.1
  have hD : Quadratic n fun b => b.psi i * (starRingEnd ℂ) (b.psi j) := by
    intro c φ ψ r' h
    dsimp only
    rw [h i hi, h j hj, map_mul, Complex.normSq_eq_conj_mul_self]; ring
  have := (average_quadratic h hL hn hnorm hd hf hD).2
  rw [this]
  simp only [branches, Line.split, Instr.split, Instr.weights, Instr.alternatives, List.flatMap_map, List.flatMap_singleton', sum_flatMap]
  congr 1
  refine List.map_congr_left fun pd hpd => ?_
  have hp := hps _ (List.of_mem_zip hpd).1
  simp only [List.map_cons, List.map_nil, List.sum_cons, List.sum_nil, add_zero]
  rw [show onState (2 ^ n) (operatorOf pd.2) ψ i = _ from if_pos hi, show onState (2 ^ n) (operatorOf pd.2) ψ j = _ from if_pos hj,
    map_mul, Complex.conj_ofReal]
  have hs : (Real.sqrt pd.1 : ℂ) * (Real.sqrt pd.1 : ℂ) = (pd.1 : ℂ) := by
    rw [← Complex.ofReal_mul, Real.mul_self_sqrt hp]
  rw [← hs]
  ring

/-- a Hadamard gate, a bit flip with probability 1/4, a rotation, a measurement with reset, a gate conditioned on the outcome -/
noncomputable def mixedLines : List Line :=
  noisyLines ++ [⟨.measure 0 0 true, none⟩, ⟨.gate (.one .X 0 [] []), some (bitCondition 0 true)⟩]

theorem mixedLines_regular : ∃ C, Regular mixedLines C 1 (fun _ => some 0.3) [false].length := by
  obtain ⟨A, hA⟩ := noisyLines_of
  obtain ⟨B, hB⟩ := buildCircuit_of (ls := [⟨.measure 0 0 true, none⟩, ⟨.gate (.one .X 0 [] []), some (bitCondition 0 true)⟩]) (by
    intro l hl
    simp only [List.mem_cons, List.not_mem_nil, or_false] at hl
    rcases hl with rfl | rfl
    · exact measure_builds (by norm_num) _ _
    · exact gate_builds _ (by norm_num))
  have hmem : ∀ l ∈ mixedLines, l ∈ noisyLines ∨ l = ⟨.measure 0 0 true, none⟩ ∨ l = ⟨.gate (.one .X 0 [] []), some (bitCondition 0 true)⟩ := by
    intro l hl
    simpa [mixedLines] using hl
  refine ⟨A.addCircuit B, ⟨built_append hA.built hB, ?_, ?_⟩, fun l _ k _ => ⟨_, rfl⟩, ?_, ?_, ?_, ?_⟩
  · intro l hl
    rcases hmem l hl with h | rfl | rfl
    · exact hA.args l h
    · trivial
    · trivial
  · intro l hl
    rcases hmem l hl with h | rfl | rfl
    · exact hA.qubits l h
    · simp [Instr.qubits]
    · simp [Instr.qubits, qubitsOf, targetsOf, controlsOf, ctrlList]
  · intro l hl
    rcases hmem l hl with h | rfl | rfl
    · simp only [noisyLines, List.mem_cons, List.not_mem_nil, or_false] at h
      rcases h with rfl | rfl | rfl
      · exact ⟨by simp, by simp⟩
      · intro d hd
        simp only [List.mem_cons, List.not_mem_nil, or_false] at hd
        rcases hd with rfl | rfl
        · exact ⟨by simp, by simp⟩
        · trivial
      · exact ⟨by simp, by simp⟩
    · trivial
    · exact ⟨by simp, by simp⟩
  · intro l hl
    rcases hmem l hl with h | rfl | rfl
    · simp only [noisyLines, List.mem_cons, List.not_mem_nil, or_false] at h
      rcases h with rfl | rfl | rfl <;> exact ⟨fun q c r h => by simp at h, fun f h => by simp at h⟩
    · exact ⟨fun q c r h => by simp only [Instr.measure.injEq] at h; simp [← h.2.1], fun f h => by simp at h⟩
    · refine ⟨fun q c r h => by simp at h, fun f h r hr => ?_⟩
      simp only [Option.some.injEq] at h
      subst h
      have : 0 < r.length := by rw [hr]; simp
      exact ⟨_, by unfold bitCondition; rw [List.getElem?_eq_getElem this]⟩
  · simp [mixedLines, noisyLines, Clear]
  · intro l hl
    rcases hmem l hl with h | rfl | rfl
    · simp only [noisyLines, List.mem_cons, List.not_mem_nil, or_false] at h
      rcases h with rfl | rfl | rfl
      · trivial
      · show [(1 : ℝ) / 4, 3 / 4].sum = 1
        norm_num
      · trivial
    · trivial
    · trivial

/-- the assumptions of the theorems hold for the sample -/
example : ∃ (C : Circuit) (μ : Measure (ℕ → ℝ)), Regular mixedLines C 1 (fun _ => some 0.3) [false].length ∧
    UniformDraws μ (fun i ω => ω i) ∧ normSq (2 ^ 1) samplePsi = 1 ∧
    ∃ final : (ℕ → ℝ) → Context, ∀ᵐ ω ∂μ, C.RunsOn 0 1 (fun i => ω i) (fun _ => some 0.3) samplePsi [false] (final ω) none := by
  obtain ⟨C, hC⟩ := mixedLines_regular
  obtain ⟨μ, hμ⟩ := uniformDraws_exist
  obtain ⟨final, hf⟩ := C74_runs hC (Or.inl rfl) (by norm_num) samplePsi_norm hμ
  exact ⟨C, μ, hC, hμ, samplePsi_norm, final, hf.mono fun ω h => (h.2.2 _ _).2 ⟨rfl, rfl⟩⟩

theorem flip_builds : ∃ g, (Instr.choice [1 / 4, 3 / 4] [.one .X 0 [] [], .ident]).build = .ok g := by
  obtain ⟨g, hg⟩ := build_one .X (q := 0) (cs := []) (vs := []) (by norm_num) (by simp) (by simp) (by simp) rfl (by simp [effectiveValues])
  obtain ⟨p, hp⟩ := (C36_accepts [some (1 / 4), some (3 / 4)] [g, .ident]).1.2
    ⟨[1 / 4, 3 / 4], rfl, by simp, rfl, by simp; norm_num, by norm_num⟩
  refine ⟨.inl p, ?_⟩
  show (do
      let gs ← [GateDesc.one .X 0 [] [], .ident].mapM GateDesc.build
      let g ← mkProbabilistic ([1 / 4, 3 / 4].map some) (gs.map .det)
      pure (Sum.inl g) : Res Item) = _
  have hm : [GateDesc.one .X 0 [] [], .ident].mapM GateDesc.build = .ok [g, .ident] := by
    rw [List.mapM_cons, hg]; rfl
  rw [hm, ok_bind]
  show (do let g ← mkProbabilistic [some (1 / 4), some (3 / 4)] ([g, .ident].map .det); pure (Sum.inl g) : Res Item) = _
  rw [hp]; rfl

/-- the assumptions of `C74_born` and `C74_channel` hold for a measurement with reset and for a bit flip with probability 1/4 -/
example : (∃ C, Regular [⟨.measure 0 0 true, none⟩] C 1 (fun _ => some 0.3) [false].length) ∧
    ∃ C, Regular [⟨.choice [1 / 4, 3 / 4] [.one .X 0 [] [], .ident], none⟩] C 1 (fun _ => some 0.3) [false].length := by
  constructor
  · obtain ⟨C, hC⟩ := buildCircuit_of (ls := [⟨.measure 0 0 true, none⟩]) (by
      intro l hl
      obtain rfl := List.mem_singleton.1 hl
      exact measure_builds (by norm_num) _ _)
    refine ⟨C, ⟨hC, ?_, ?_⟩, fun l _ k _ => ⟨_, rfl⟩, ?_, ?_, by simp [Clear], ?_⟩ <;>
      (intro l hl; obtain rfl := List.mem_singleton.1 hl)
    · trivial
    · simp [Instr.qubits]
    · trivial
    · exact ⟨fun q c r h => by simp only [Instr.measure.injEq] at h; simp [← h.2.1], fun f h => by simp at h⟩
    · trivial
  · obtain ⟨C, hC⟩ := buildCircuit_of (ls := [⟨.choice [1 / 4, 3 / 4] [.one .X 0 [] [], .ident], none⟩]) (by
      intro l hl
      obtain rfl := List.mem_singleton.1 hl
      exact flip_builds)
    refine ⟨C, ⟨hC, ?_, ?_⟩, fun l _ k _ => ⟨_, rfl⟩, ?_, ?_, by simp [Clear], ?_⟩ <;>
      (intro l hl; obtain rfl := List.mem_singleton.1 hl)
    · simp [Instr.OK, DescOK]
    · simp [Instr.qubits, qubitsOf, targetsOf, controlsOf, ctrlList]
    · intro d hd
      simp only [List.mem_cons, List.not_mem_nil, or_false] at hd
      rcases hd with rfl | rfl
      · exact ⟨by simp, by simp⟩
      · trivial
    · exact ⟨fun q c r h => by simp at h, fun f h => by simp at h⟩
    · show [(1 : ℝ) / 4, 3 / 4].sum = 1
      norm_num

/-! ## C75 -/

/-- the probability of drawing `k` and the total probability, when the numbers drawn lie in `[0, 1)` -/
theorem clipped {n : Nat} (hn : n ≤ 63) {ψ : U64 → ℂ} (h1 : normSq (2 ^ n) ψ ≤ 1) {k : Nat} (hk : k < 2 ^ n) :
    (min (cumProb ψ (k + 1)) 1 - min (cumProb ψ k) 1) / min (normSq (2 ^ n) ψ) 1 =
      Complex.normSq (ψ (BitVec.ofNat 64 k)) / normSq (2 ^ n) ψ := by
  have ha : cumProb ψ (k + 1) ≤ 1 := by
    have := cumProb_mono ψ (show k + 1 ≤ 2 ^ n from hk)
    rw [cumProb_all hn] at this
    linarith
  have hb := (cumProb_mono ψ (Nat.le_succ k)).trans ha
  rw [min_eq_left ha, min_eq_left hb, min_eq_left h1, (C34_draw (n := n) ψ le_rfl hk).2]

/-- **C75 (any state).** `sampling(count)` of any state other than zero returns independent samples: index `k` has the probability
that the interval of length `|ψ_k|²` from `F(k)` to `F(k+1)` has inside the part of `[0, 1)` that is not rejected. -/
theorem C75_any_state {n : Nat} (hn : n ≤ 63) {ψ : U64 → ℂ} (h0 : 0 < normSq (2 ^ n) ψ) {draws : ℕ → ℕ → Ω → ℝ}
    (hd : UniformDraws μ fun p : ℕ × ℕ => draws p.1 p.2) {ks : List Nat} (hk : ∀ k ∈ ks, k < 2 ^ n) :
    μ.real {ω | Samples n ψ ks.length (fun k i => draws k i ω) ks} =
      (ks.map fun k => (min (cumProb ψ (k + 1)) 1 - min (cumProb ψ k) 1) / min (normSq (2 ^ n) ψ) 1).prod := by
  have hm := mass_rejected hn ψ
  have hmin : 0 < min (normSq (2 ^ n) ψ) 1 := lt_min h0 one_pos
  have key := list_law (μ := μ) (draws := draws) (draw := drawIndex (stackedProb n ψ)) (drawIndex_measurable _) (dim := 2 ^ n) (by linarith)
    (fun k h => (hk k h).ne) hd
  refine key.trans ?_
  congr 1
  refine List.map_congr_left fun k hk' => ?_
  rw [hm, mass_index ψ (hk k hk'), sub_sub_cancel]

/-- **C75.** `sampling(count)` returns independent samples: the probability of obtaining the list `ks` is the product of the
probabilities `|ψ_k|² / ‖ψ‖²` of its entries, for every state other than zero whose norm is at most one. -/
theorem C75_sampling {n : Nat} (hn : n ≤ 63) {ψ : U64 → ℂ} (h0 : 0 < normSq (2 ^ n) ψ) (h1 : normSq (2 ^ n) ψ ≤ 1) {draws : ℕ → ℕ → Ω → ℝ}
    (hd : UniformDraws μ fun p : ℕ × ℕ => draws p.1 p.2) {ks : List Nat} (hk : ∀ k ∈ ks, k < 2 ^ n) :
    μ.real {ω | Samples n ψ ks.length (fun k i => draws k i ω) ks} =
      (ks.map fun k => Complex.normSq (ψ (BitVec.ofNat 64 k)) / normSq (2 ^ n) ψ).prod := by
  rw [C75_any_state hn h0 hd hk]
  congr 1
  exact List.map_congr_left fun k hk' => clipped hn h1 (hk k hk')

/-- **C75 (termination).** The loop that draws again ends almost surely, for every state other than zero. -/
theorem C75_returns {n : Nat} (hn : n ≤ 63) {ψ : U64 → ℂ} (h0 : 0 < normSq (2 ^ n) ψ) {draws : ℕ → ℕ → Ω → ℝ}
    (hd : UniformDraws μ fun p : ℕ × ℕ => draws p.1 p.2) (count : Nat) :
    ∀ᵐ ω ∂μ, ∃ ks, Samples n ψ count (fun k i => draws k i ω) ks := by
  have hm := mass_rejected hn ψ
  have hmin : 0 < min (normSq (2 ^ n) ψ) 1 := lt_min h0 one_pos
  have := loop_returns (μ := μ) (draws := draws) (draw := fun _ : ℕ => drawIndex (stackedProb n ψ)) (alloc := fun t => decide (t < count))
    (dim := 2 ^ n) (fun _ => drawIndex_measurable _) (fun _ r h0 _ => by obtain ⟨k, hk, -⟩ := drawIndex_hits (n := n) ψ h0; exact ⟨k, hk⟩)
    (ts := List.range count) (fun _ _ => by unfold missSet; linarith) (by simp) hd (fun _ => 0)
  filter_upwards [this] with ω hω
  obtain ⟨final, hl⟩ := hω
  exact ⟨_, final, hl, rfl⟩

/-- **C75 (batched states).** The samples of all slots are independent and follow the distributions of their slots. -/
theorem C75_batched {s : Batch} (hn : s.n ≤ 63) (h0 : ∀ b < s.size, 0 < normSq (2 ^ s.n) (s.raw b)) (h1 : ∀ b < s.size, normSq (2 ^ s.n) (s.raw b) ≤ 1)
    {draws : ℕ → ℕ → Ω → ℝ} (hd : UniformDraws μ fun p : ℕ × ℕ => draws p.1 p.2) {count : Nat} {k : ℕ → ℕ → ℕ} (hk : ∀ b i, k b i < 2 ^ s.n) :
    μ.real {ω | s.Samples count (fun k i => draws k i ω) ((List.range s.size).map fun b => (List.range count).map fun i => k b i)} =
      ∏ b ∈ Finset.range s.size, ∏ i ∈ Finset.range count,
        (Complex.normSq (s.raw b (BitVec.ofNat 64 (k b i))) / normSq (2 ^ s.n) (s.raw b)) := by
  have hmem : ∀ t : ℕ × ℕ, t ∈ ((List.range s.size).flatMap fun b => (List.range count).map fun j => (b, j)) ↔
      t.1 < s.size ∧ t.2 < count := by
    rintro ⟨b, j⟩; simp
  have hnd : ((List.range s.size).flatMap fun b => (List.range count).map fun j => (b, j)).Nodup := by
    rw [List.nodup_flatMap]
    refine ⟨fun b _ => List.nodup_range.map fun a b h => (Prod.ext_iff.1 h).2, ?_⟩
    refine List.Pairwise.imp (fun {a b} hab => ?_) List.nodup_range
    intro x hx hy
    obtain ⟨j, -, rfl⟩ := List.mem_map.1 hx
    obtain ⟨j', -, e⟩ := List.mem_map.1 hy
    exact hab (Prod.ext_iff.1 e).1.symm
  have hm : ∀ t : ℕ × ℕ, mass (missSet (fun t : ℕ × ℕ => drawIndex (stackedProb s.n (s.raw t.1))) (2 ^ s.n) t) =
      1 - min (normSq (2 ^ s.n) (s.raw t.1)) 1 := fun t => mass_rejected hn (s.raw t.1)
  have hv : ∀ t : ℕ × ℕ, mass (hitSet (fun t : ℕ × ℕ => drawIndex (stackedProb s.n (s.raw t.1))) (fun t => k t.1 t.2) t) =
      min (cumProb (s.raw t.1) (k t.1 t.2 + 1)) 1 - min (cumProb (s.raw t.1) (k t.1 t.2)) 1 := fun t => mass_index (s.raw t.1) (hk _ _)
  have key := loop_law (μ := μ) (draws := draws) (draw := fun t : ℕ × ℕ => drawIndex (stackedProb s.n (s.raw t.1)))
    (alloc := fun t => decide (t.1 < s.size ∧ t.2 < count)) (dim := 2 ^ s.n)
    (v := fun t => k t.1 t.2) (fun t => (hk _ _).ne) (fun t => drawIndex_measurable _)
    (fun t ht => by
      have := lt_min (h0 _ ((hmem t).1 ht).1) one_pos
      rw [hm]; linarith) hnd (fun t ht => by simpa using (hmem t).1 ht)
    hd (fun _ => 0)
  have hset : {ω | s.Samples count (fun k i => draws k i ω) ((List.range s.size).map fun b => (List.range count).map fun i => k b i)} =
      {ω | ∃ final, SampleLoop (2 ^ s.n) (fun t : ℕ × ℕ => drawIndex (stackedProb s.n (s.raw t.1))) (fun t => decide (t.1 < s.size ∧ t.2 < count))
        (fun k i => draws k i ω) 0 ((List.range s.size).flatMap fun b => (List.range count).map fun j => (b, j)) (fun _ => 0) final ∧
        ∀ t ∈ ((List.range s.size).flatMap fun b => (List.range count).map fun j => (b, j)), final t = k t.1 t.2} := by
    ext ω
    refine exists_congr fun final => and_congr Iff.rfl ?_
    constructor
    · intro e t ht
      obtain ⟨hb, hj⟩ := (hmem t).1 ht
      have := congrArg (fun l => l[t.1]?) e
      simp only [List.getElem?_map, List.getElem?_range hb, Option.map_some, Option.some.injEq] at this
      have := congrArg (fun l => l[t.2]?) this
      simp only [List.getElem?_map, List.getElem?_range hj, Option.map_some, Option.some.injEq] at this
      exact this.symm
    · intro e
      refine List.map_congr_left fun b hb => List.map_congr_left fun i hi => ?_
      exact (e (b, i) ((hmem _).2 ⟨List.mem_range.1 hb, List.mem_range.1 hi⟩)).symm
  rw [hset, key]
  simp only [hm, hv, sub_sub_cancel]
  have e : ∀ t ∈ ((List.range s.size).flatMap fun b => (List.range count).map fun j => (b, j)),
      (min (cumProb (s.raw t.1) (k t.1 t.2 + 1)) 1 - min (cumProb (s.raw t.1) (k t.1 t.2)) 1) / min (normSq (2 ^ s.n) (s.raw t.1)) 1 =
      Complex.normSq (s.raw t.1 (BitVec.ofNat 64 (k t.1 t.2))) / normSq (2 ^ s.n) (s.raw t.1) :=
    fun t ht => clipped hn (h1 _ ((hmem t).1 ht).1) (hk _ _)
  rw [List.map_congr_left e, List.map_flatMap]
  have hprod : ∀ (f : ℕ → ℝ) (m : ℕ), ((List.range m).map f).prod = ∏ i ∈ Finset.range m, f i := by
    intro f m
    induction m with
    | zero => rfl
    | succ m ih => rw [List.range_succ, List.map_append, List.prod_append, ih, Finset.prod_range_succ]; simp
  rw [← hprod]
  generalize List.range s.size = bs
  induction bs with
  | nil => rfl
  | cons b bs ih =>
    rw [List.flatMap_cons, List.prod_append, ih, List.map_cons, List.prod_cons, List.map_map, ← hprod]
    rfl

/-- **C75 (density matrices).** Sampling a matrix with a non-negative diagonal and a trace in `(0, 1]` returns independent samples with
the probabilities `ρ_kk / tr ρ`. -/
theorem C75_density {d : DM} (hn : d.n ≤ 63) (hh : d.hermitian = true) (hpos : ∀ j : U64, j.toNat < 2 ^ d.n → 0 ≤ (d.raw (j, j)).re)
    (h0 : 0 < (traceOf (2 ^ d.n) d.raw).re) (h1 : (traceOf (2 ^ d.n) d.raw).re ≤ 1) {draws : ℕ → ℕ → Ω → ℝ}
    (hd : UniformDraws μ fun p : ℕ × ℕ => draws p.1 p.2) :
    (∀ count, ∀ᵐ ω ∂μ, ∃ ks, d.Samples count (fun k i => draws k i ω) ks) ∧
    ∀ ks : List Nat, (∀ k ∈ ks, k < 2 ^ d.n) → μ.real {ω | d.Samples ks.length (fun k i => draws k i ω) ks} =
      (ks.map fun k => (d.raw (BitVec.ofNat 64 k, BitVec.ofNat 64 k)).re / (traceOf (2 ^ d.n) d.raw).re).prod := by
  rw [← normSq_diag hn hpos] at h0 h1 ⊢
  simp only [samplesM hn hh hpos]
  refine ⟨fun count => C75_returns hn h0 hd count, fun ks hk => ?_⟩
  rw [C75_sampling hn h0 h1 hd hk]
  congr 1
  refine List.map_congr_left fun k hk' => ?_
  rw [normSq_diagVector (hpos _ (by rw [toNat_ofNat_pow hn (hk k hk')]; exact hk k hk'))]

/-- independent uniform numbers for all rounds and work items exist -/
theorem poolDraws_exist : ∃ μ : Measure (ℕ × ℕ → ℝ), UniformDraws μ fun p : ℕ × ℕ => fun ω : ℕ × ℕ → ℝ => ω p := by
  have : IsProbabilityMeasure (volume.restrict (Set.Ico (0 : ℝ) 1)) := ⟨by simp⟩
  refine ⟨Measure.infinitePi fun _ : ℕ × ℕ => volume.restrict (Set.Ico (0 : ℝ) 1), fun p => measurable_pi_apply _, ?_, fun p => ?_⟩
  · exact iIndepFun_infinitePi (P := fun _ : ℕ × ℕ => volume.restrict (Set.Ico (0 : ℝ) 1)) (X := fun _ x => x) fun _ => measurable_id
  · exact Measure.infinitePi_map_eval _ p

/-- the theorems apply to a state of norm less than one: two samples of `(0.6, 0.2)` -/
example : ∃ μ : Measure (ℕ × ℕ → ℝ), μ.real {ω | Samples 1 (fun i => if i = 0 then 0.6 else 0.2) 2 (fun k i => ω (k, i)) [0, 1]} = 0.09 := by
  obtain ⟨μ, h⟩ := poolDraws_exist
  have hN : normSq (2 ^ 1) (fun i : U64 => if i = 0 then (0.6 : ℂ) else 0.2) = 0.4 := by
    rw [normSq, sum_indices (by norm_num)]
    simp [Finset.sum_range_succ, Complex.normSq_apply]
    norm_num
  refine ⟨μ, ?_⟩
  have := C75_sampling (μ := μ) (draws := fun k i ω => ω (k, i)) (n := 1) (by norm_num) (ψ := fun i : U64 => if i = 0 then (0.6 : ℂ) else 0.2)
    (by rw [hN]; norm_num) (by rw [hN]; norm_num) h (ks := [0, 1]) (by simp)
  rw [show ([0, 1] : List ℕ).length = 2 from rfl] at this
  rw [this, hN]
  simp [Complex.normSq_apply]
  norm_num

/-- and to the maximally mixed state of one qubit -/
example : ∃ μ : Measure (ℕ × ℕ → ℝ), μ.real {ω | DM.Samples ⟨1, true, fun p => if p.1 = p.2 then 0.5 else 0⟩ 2 (fun k i => ω (k, i)) [0, 1]} = 0.25 := by
  obtain ⟨μ, h⟩ := poolDraws_exist
  refine ⟨μ, ?_⟩
  have ht : (traceOf (2 ^ 1) (fun p : U64 × U64 => if p.1 = p.2 then (0.5 : ℂ) else 0)).re = 1 := by
    simp [traceOf]
    norm_num
  have := (C75_density (μ := μ) (draws := fun k i ω => ω (k, i)) (d := ⟨1, true, fun p => if p.1 = p.2 then 0.5 else 0⟩) (by norm_num) rfl
    (by intro j _; simp; norm_num) (by rw [ht]; norm_num) (by rw [ht]) h).2 [0, 1] (by simp)
  rw [show ([0, 1] : List ℕ).length = 2 from rfl] at this
  rw [this, ht]
  simp
  norm_num

end Verif.Props
