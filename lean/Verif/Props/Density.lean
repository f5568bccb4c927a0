import Verif.Proofs.DensityRead
import Verif.Props.Gates
import Verif.Props.State

/-! # C50 - C52, C58, C59: density matrices -/

namespace Verif.Props
open Verif Verif.Spec Verif.Model Verif.Proofs
open scoped ComplexConjugate
attribute [-simp] BitVec.getLsbD_eq_getElem

/-- an element of the matrix -/
def CellOf (n : Nat) (p : U64 × U64) : Prop := p.1.toNat < 2 ^ n ∧ p.2.toNat < 2 ^ n

/-! ## C50 -/

/-- the gates with a density-matrix kernel -/
def StandardDesc : GateDesc → Prop
  | .ident | .globalPhase _ _ _ | .one _ _ _ _ | .swap _ _ _ _ | .ecr _ _ _ _ => True
  | _ => False

theorem standardDesc_ok {d : GateDesc} (h : StandardDesc d) : DescOK d := by
  cases d <;> first | trivial | exact h.elim

theorem standard_build {d : GateDesc} {g : UGate} (h : d.build = .ok g) : StandardDesc d ↔ StandardGate g := by
  cases d with
  | ident => cases h; exact Iff.rfl
  | _ => obtain ⟨o, -, h⟩ := bind_ok h; cases h; exact Iff.rfl

theorem conjugatedBy_eq {g : UGate} {n : Nat} (hn : n < 64) (ht : ∀ q ∈ UGate.ts g, q < n) (ρ : U64 × U64 → ℂ) {p : U64 × U64}
    (hp : CellOf n p) : onMatrix (2 ^ n) (opOf g) ρ p = conjugatedBy (2 ^ n) (opOf g) ρ p := by
  have hd : 2 ^ n ≤ 2 ^ 64 := Nat.pow_le_pow_right (by norm_num) hn.le
  obtain ⟨i, j⟩ := p
  unfold opOf
  rw [onMatrix_col hn (valid_targetsOK g).lt ht _ ρ hp.1 hp.2, Finset.sum_comm, sum_indices hd]
  refine Finset.sum_congr rfl fun r _ => ?_
  rw [sum_indices hd]
  rfl

/-- **C50 (every matrix).** A gate of a standard class, with any angles, targets and controls of the register, turns `ρ` into
`U ρ U†`, where `U` is the documented operator; this is the only possible result. -/
theorem C50_gate {d : DM} {desc : GateDesc} (hs : StandardDesc desc) {g : UGate} (hb : desc.build = .ok g) (hn : d.n < 32)
    (hq : ∀ q ∈ qubitsOf desc, q < d.n) :
    ∃ d', d.Does (.gate g) d' ∧ (∀ d'', d.Does (.gate g) d'' → d'' = d') ∧ d'.n = d.n ∧
      ∀ p, CellOf d.n p → d'.raw p = conjugatedBy (2 ^ d.n) (operatorOf desc) d.raw p := by
  obtain ⟨hv, ho, hsame⟩ := build_valid (standardDesc_ok hs) hb
  obtain ⟨ht, hc⟩ := build_bounds hsame hq
  obtain ⟨l, hl, hr⟩ := updateDM_valid hv ((standard_build hb).1 hs) hn ht hc
  have hdoes : d.Does (.gate g) ⟨d.n, d.hermitian, onMatrix (2 ^ d.n) (opOf g) d.raw⟩ :=
    ⟨⟨d.hermitian, l⟩, by simp only [DMOp.exec]; rw [hl]; rfl, rfl, rfl, hr d.raw⟩
  refine ⟨_, hdoes, fun d'' h => does_unique h hdoes, rfl, fun p hp => ?_⟩
  rw [← ho]
  exact conjugatedBy_eq (by omega) ht d.raw hp

/-- **C50 (pure states).** On the projector of a state vector `ψ` the gate gives the projector of the state vector that the
state-vector backend computes from `ψ`. -/
theorem C50_pure {d : DM} {desc : GateDesc} (hs : StandardDesc desc) {g : UGate} (hb : desc.build = .ok g) (hn : d.n < 32)
    (hq : ∀ q ∈ qubitsOf desc, q < d.n) {ψ : U64 → ℂ} (hψ : ∀ p, CellOf d.n p → d.raw p = projector ψ p) {L : Nat} (hL : LanesOK L) :
    ∃ d' dev ψ', d.Does (.gate g) d' ∧ g.update L 1 d.n = .ok dev ∧ DRuns (2 ^ d.n) dev ψ ψ' ∧
      ∀ p, CellOf d.n p → d'.raw p = projector ψ' p := by
  have hdo := standardDesc_ok hs
  obtain ⟨hv, ho, hsame⟩ := build_valid hdo hb
  obtain ⟨ht, hc⟩ := build_bounds hsame hq
  obtain ⟨l, hl, hr⟩ := updateDM_valid hv ((standard_build hb).1 hs) hn ht hc
  have hsz : 1 * 2 ^ d.n ≤ 2 ^ 64 := by rw [Nat.one_mul]; exact Nat.pow_le_pow_right (by norm_num) (by omega)
  obtain ⟨dev, hdev, hrun⟩ := performs_of_build hdo hb ⟨hL, by omega, hsz⟩ hq
  have hrun := hrun ψ
  rw [Nat.one_mul] at hrun
  refine ⟨⟨d.n, d.hermitian, onMatrix (2 ^ d.n) (opOf g) d.raw⟩, dev, _, ⟨⟨d.hermitian, l⟩, by simp only [DMOp.exec]; rw [hl]; rfl, rfl, rfl, hr d.raw⟩,
    hdev, hrun, fun p hp => ?_⟩
  rw [← ho]
  dsimp only
  have e : onMatrix (2 ^ d.n) (opOf g) d.raw p = onMatrix (2 ^ d.n) (opOf g) (projector ψ) p := by
    rw [conjugatedBy_eq (by omega) ht _ hp, conjugatedBy_eq (by omega) ht _ hp]
    unfold conjugatedBy
    refine Finset.sum_congr rfl fun r hr => Finset.sum_congr rfl fun c hc => ?_
    have hlt : ∀ k ∈ Finset.range (2 ^ d.n), (BitVec.ofNat 64 k).toNat < 2 ^ d.n := by
      intro k hk
      rw [Finset.mem_range] at hk
      rw [Verif.toNat_ofNat_lt (lt_of_lt_of_le hk (by omega))]; exact hk
    rw [hψ (BitVec.ofNat 64 r, BitVec.ofNat 64 c) ⟨hlt r hr, hlt c hc⟩]
  rw [e]
  exact onMatrix_projector _ ψ hp

/-- **C50 (calls that throw).** Gates of the other classes, and gates on a qubit outside the register, throw and leave the
matrix as it is. -/
theorem C50_throws {d : DM} {desc : GateDesc} (hd : DescOK desc) {g : UGate} (hb : desc.build = .ok g) (hn : d.n < 64)
    (h : ¬ (StandardDesc desc ∧ ∀ q ∈ qubitsOf desc, q < d.n)) : d.Throws (.gate g) ∧ ∀ d', ¬ d.Does (.gate g) d' := by
  have key : ∃ s, g.updateDM d.n = .error (.throw s) := by
    by_cases hs : StandardDesc desc
    · obtain ⟨hv, -, hsame⟩ := build_valid hd hb
      refine updateDM_throws hv ((standard_build hb).1 hs) hn fun hin => h ⟨hs, fun q hq => ?_⟩
      rcases List.mem_append.1 hq with h1 | h1
      · exact hin.1 q ((hsame.1 q).2 h1)
      · obtain ⟨p, hp, rfl⟩ := List.mem_map.1 h1
        obtain ⟨b, hb'⟩ := (hsame.2 p.1).2 ⟨p.2, hp⟩
        exact hin.2 (p.1, b) hb'
    · rw [standard_build hb] at hs
      cases g <;> first | exact absurd trivial hs | exact ⟨_, rfl⟩
  obtain ⟨s, hs⟩ := key
  refine ⟨⟨s, by simp only [DMOp.exec]; rw [hs]; rfl⟩, ?_⟩
  rintro d' ⟨u, hu, -⟩
  simp only [DMOp.exec] at hu
  rw [hs] at hu
  cases hu

/-- two qubits, `ρ` with elements `ρ(i, j) = i + 2 i j √-1`, not Hermitian -/
noncomputable def demoDM : DM := ⟨2, false, fun p => p.1.toNat + 2 * p.1.toNat * p.2.toNat * Complex.I⟩

example : ∃ g, (GateDesc.one (.RX 1) 0 [1] [0]).build = .ok g ∧ StandardDesc (.one (.RX 1) 0 [1] [0]) ∧
    ∀ q ∈ qubitsOf (.one (.RX 1) 0 [1] [0]), q < demoDM.n := by
  obtain ⟨g, hg⟩ := build_one (.RX 1) (q := 0) (cs := [1]) (vs := [0]) (by norm_num) (by simp) (by simp) (by simp) (by simp [effectiveValues]) (by simp [effectiveValues])
  exact ⟨g, hg, trivial, by simp [qubitsOf, targetsOf, controlsOf, ctrlList, effectiveValues, demoDM]⟩

/-! ## C51 -/

/-- **C51 (get_trace).** -/
theorem C51_get_trace {d : DM} (hn : d.n < 64) : d.trace = .ok (traceOf (2 ^ d.n) d.raw) := trace_eq hn

/-- **C51 (gates).** A unitary gate keeps the trace. -/
theorem C51_unitary_gates {d d' : DM} {desc : GateDesc} (hd : DescOK desc) (hu : UnitaryDesc desc) {g : UGate} (hb : desc.build = .ok g)
    (hn : d.n < 32) (h : d.Does (.gate g) d') : d'.trace = d.trace := by
  obtain ⟨hv, -, -⟩ := build_valid hd hb
  obtain ⟨ht, hc, rfl⟩ := does_gate hn hv h
  rw [trace_eq (d := d) (by omega), trace_eq (by dsimp only; omega)]
  congr 1
  exact onMatrix_trace (by omega) (valid_targetsOK g) (valid_ctrlDisj hv) ht (fun r s hr hs => unitary_valid hv (unitaryHyp_of hd hb hu) hr hs) d.raw

/-- **C51 (partial trace, fewer than 16 qubits left).** `get_partial_trace(qs)` of distinct qubits of the register returns the
matrix whose element `(i, j)` sums the elements `((i, x), (j, x))` over the values `x` of the traced qubits, in whatever order the
qubits are listed and whatever the fresh buffer contained.  The trace is the same.

`_partial`: for 16 or more remaining qubits the claim is false, see `C51_league_counterexample`. -/
theorem C51_partial_trace_partial {d : DM} (hn : d.n < 32) {qs : List Nat} (hnd : qs.Nodup) (hq : ∀ q ∈ qs, q < d.n)
    (h16 : qs = [] ∨ d.n - qs.length < 16) :
    (∃ d', d.PartialTraces qs d') ∧
    ∀ d', d.PartialTraces qs d' → d'.n = d.n - qs.length ∧ (∀ p, CellOf d'.n p → d'.raw p = partialTraceOf d.n qs d.raw p) ∧
      d'.trace = d.trace := by
  refine ⟨?_, fun d' h => ?_⟩
  · by_cases hne : qs = []
    · subst hne
      exact ⟨⟨d.n, d.hermitian, _⟩, ⟨d.n, d.hermitian, [fillM (2 ^ d.n) d.raw]⟩, by unfold DM.partialTrace; rw [if_pos rfl], rfl, rfl, d.raw, fillM_runs hn _ _⟩
    · obtain ⟨r, hr, -, -, hrun⟩ := partialTrace_ok hn hne hnd hq (h16.resolve_left hne)
      exact ⟨⟨r.n, r.hermitian, _⟩, r, hr, rfl, rfl, fun _ => 0, hrun _⟩
  · obtain ⟨-, -, h1, -, h3⟩ := partialTrace_cases hn h h16
    refine ⟨h1, h3, ?_⟩
    rw [trace_eq (d := d) (by omega), trace_eq (d := d') (by omega), h1, ← trace_partialTraceOf (by omega) hnd hq d.raw]
    congr 1
    unfold traceOf
    refine Finset.sum_congr rfl fun i hi => h3 _ ?_
    rw [Finset.mem_range, ← h1] at hi
    have hlt : (BitVec.ofNat 64 i).toNat < 2 ^ d'.n := by
      rw [Verif.toNat_ofNat_lt (lt_of_lt_of_le hi (Nat.pow_le_pow_right (by norm_num) (by omega)))]; exact hi
    exact ⟨hlt, hlt⟩

/-- **C51 (calls that throw).** A repeated qubit or one outside the register throws. -/
theorem C51_partial_trace_throws {d : DM} {qs : List Nat} (h : ¬ (qs.Nodup ∧ ∀ q ∈ qs, q < d.n)) :
    ∃ msg, d.partialTrace qs = .error (.throw msg) := by
  have hne : qs ≠ [] := by rintro rfl; exact h ⟨List.nodup_nil, by simp⟩
  unfold DM.partialTrace
  rw [if_neg hne]
  by_cases hq : ∃ q ∈ qs, q ≥ d.n
  · rw [if_pos hq]; exact ⟨_, rfl⟩
  · rw [if_neg hq]
    cases hm : vectorToMask qs with
    | error e =>
      obtain ⟨msg, rfl⟩ := vectorToMask_throws hm
      exact ⟨msg, rfl⟩
    | ok mask =>
      push Not at hq
      exact (h ⟨((vectorToMask_ok_iff qs).1 ⟨mask, hm⟩).1, hq⟩).elim

/-- **C51 (counterexample).** The league size `65536²` is `0` as an `int`: tracing one of 17 qubits computes nothing, and the result
is whatever the fresh memory contained - here a matrix of another trace. -/
theorem C51_league_counterexample :
    ∃ d d' : DM, d.n = 17 ∧ d.PartialTraces [16] d' ∧ d.trace ≠ d'.trace := by
  obtain ⟨r, hr, h1, h2, hrun⟩ := partialTrace_large (d := ⟨17, true, fun _ => 0⟩) (qs := [16]) (by norm_num) (by simp) (by simp) (by simp) (by simp)
  have hrn : r.n = 16 := by rw [h1]; rfl
  refine ⟨⟨17, true, fun _ => 0⟩, ⟨r.n, r.hermitian, fun _ => 1⟩, rfl, ⟨r, hr, rfl, rfl, fun _ => 1, hrun _⟩, ?_⟩
  rw [trace_eq (by norm_num), trace_eq (by dsimp only; omega)]
  intro h
  injection h with h
  unfold traceOf at h
  simp [hrn] at h

example : ([2, 0] : List Nat).Nodup ∧ (∀ q ∈ ([2, 0] : List Nat), q < 3) ∧ (3 - ([2, 0] : List Nat).length < 16) := by simp

/-! ## C52 -/

/-- The density matrices a program can have: made uninitialised (flag down), changed by calls whose claims are true
(`DMOp.Honest`) and whose other arguments are such matrices too, copied, or obtained as a partial trace with fewer than 16
remaining qubits.  The constructor and the factories call `set_zero_state`, `load` or `set_computational_basis` on an uninitialised
matrix. -/
inductive Reachable : DM → Prop
  | uninitialized (n : Nat) (hn : n < 32) (raw : U64 × U64 → ℂ) : Reachable ⟨n, false, raw⟩
  | call {d d' : DM} (op : DMOp) (h : Reachable d) (hargs : ∀ o, op.other? = some o → Reachable o) (ho : op.Honest d)
      (hd : d.Does op d') : Reachable d'
  | partialTrace {d d' : DM} (qs : List Nat) (h : Reachable d) (h16 : qs = [] ∨ d.n - qs.length < 16) (hd : d.PartialTraces qs d') :
      Reachable d'

/-- **C52 (histories whose claims are true).** If `is_hermitian()` answers true, the matrix equals its conjugate transpose, after
every history of calls.

`_partial`: a history may claim something false - `load(matrix, true)` of another matrix, `force_hermitian()` - and then
nothing can be concluded.  But `set_coherence_pair_at(i, i, z)`, which claims nothing, also breaks the flag, see
`C52_counterexample`. -/
theorem C52_flag_partial {d : DM} (h : Reachable d) : d.n < 32 ∧ (d.hermitian = true → HermitianOn (2 ^ d.n) d.raw) := by
  induction h with
  | uninitialized n hn raw => exact ⟨hn, fun h => by cases h⟩
  | call op h hargs ho hd ih iha =>
    obtain ⟨hs, hn⟩ := flagSound_step ih.1 ih.2 ho (fun o e => (iha o e).2) hd
    exact ⟨by rw [hn]; exact ih.1, hs⟩
  | partialTrace qs h h16 hd ih =>
    obtain ⟨-, hq, h1, h2, h3⟩ := partialTrace_cases ih.1 hd h16
    refine ⟨by have := ih.1; omega, fun hf i j hi hj => ?_⟩
    rw [h3 (i, j) ⟨hi, hj⟩, h3 (j, i) ⟨hj, hi⟩]
    rw [h2] at hf
    exact partialTraceOf_hermitian (by have := ih.1; omega) hq (ih.2 hf) _ i j hi hj

/-- **C52 (counterexample).** On the zero state, `set_coherence_pair_at(0, 0, i)` stores an imaginary diagonal element and leaves
the flag up. -/
theorem C52_counterexample : ∃ d₀ d₁ d₂ : DM, d₀ = ⟨1, false, fun _ => 0⟩ ∧ d₀.Does .setZeroState d₁ ∧
    d₁.Does (.setCoherencePair 0 0 Complex.I) d₂ ∧ d₂.hermitian = true ∧ ¬ HermitianOn (2 ^ d₂.n) d₂.raw := by
  refine ⟨_, _, _, rfl, does_fill (by norm_num) rfl, does_setPair (by norm_num) Complex.I (by norm_num) (by norm_num), rfl, fun h => ?_⟩
  have := h 0 0 (by simp) (by simp)
  dsimp only at this
  have e : ((0, 0) : U64 × U64) = (0#64, 0#64) := rfl
  rw [if_pos e, Complex.conj_I] at this
  have h2 := congrArg Complex.im this
  simp at h2
  norm_num at h2

/-- a history that raises the flag -/
theorem zero_then_gate_reachable : ∃ d : DM, Reachable d ∧ d.hermitian = true ∧ d.n = 2 := by
  refine ⟨_, .call .setZeroState (.uninitialized 2 (by norm_num) fun _ => 7) (by rintro o ⟨⟩) trivial (does_fill (by norm_num) rfl), rfl, rfl⟩

example : ∃ d : DM, Reachable d ∧ d.hermitian = true ∧ d.n = 2 := zero_then_gate_reachable

/-! ## C58: reading -/

open Classical in
/-- **C58 (formulas).** On a matrix flagged Hermitian the read-outs are functions of the diagonal: the probability of 0 on a qubit, the
probability of a pattern, the entropy; `get_purity` is the sum of squared moduli, the trace of `ρ²` if `ρ` is Hermitian. -/
theorem C58_formulas {d : DM} (hn : d.n ≤ 63) (hh : d.hermitian = true) :
    (∀ q, q < d.n → d.zeroProbability q = .ok (∑ j ∈ indices (2 ^ d.n), if j.getLsbD q = false then (d.raw (j, j)).re else 0)) ∧
    (∀ pattern : List Nat, pattern.length = d.n → (∀ v ∈ pattern, v ≤ 2) →
      d.marginalProbability pattern = .ok (∑ j ∈ indices (2 ^ d.n), if Matches pattern j then (d.raw (j, j)).re else 0)) ∧
    d.entropy = .ok (∑ j ∈ indices (2 ^ d.n), if 0 < (d.raw (j, j)).re then (d.raw (j, j)).re * Real.logb 2 (1 / (d.raw (j, j)).re) else 0) ∧
    (HermitianOn (2 ^ d.n) d.raw → ∃ r : ℝ, d.purity = .ok r ∧
      (r : ℂ) = ∑ i ∈ indices (2 ^ d.n), ∑ j ∈ indices (2 ^ d.n), d.raw (i, j) * d.raw (j, i)) := by
  refine ⟨fun q hq => ?_, fun pattern hl hv => ?_, entropyM_eq hn hh, fun h => ⟨_, purity_eq hn hh, purity_trace hn h⟩⟩
  · unfold DM.zeroProbability
    rw [if_neg (by omega), if_neg (by simp [hh]), zeroSumM hn hq]
  · unfold DM.marginalProbability
    rw [if_neg (by omega), if_neg (by simp [hh]), measuredTargets_ok 0 pattern hv, ok_bind, List.length_map]
    exact marginalSumM hn hl

/-- **C58 (pure states).** On the projector of `ψ` every read-out agrees with the one of the state vector, and the purity is the
square of its squared norm. -/
theorem C58_pure {d : DM} (hn : d.n ≤ 63) (hh : d.hermitian = true) {ψ : U64 → ℂ} (hψ : ∀ p, CellOf d.n p → d.raw p = projector ψ p) :
    (∀ q r, zeroProbability d.n q ψ = .ok r → d.zeroProbability q = .ok r) ∧
    (∀ pattern r, marginalProbability d.n ψ pattern = .ok r → d.marginalProbability pattern = .ok r) ∧
    d.entropy = entropy d.n ψ ∧ d.purity = .ok (normSq (2 ^ d.n) ψ ^ 2) ∧
    (∀ count rnd final, d.Samples count rnd final ↔ Samples d.n ψ count rnd final) := by
  have hp := pow64 hn
  have hdiag : ∀ j : U64, j.toNat < 2 ^ d.n → (d.raw (j, j)).re = Complex.normSq (ψ j) := by
    intro j hj
    rw [hψ (j, j) ⟨hj, hj⟩]
    unfold projector
    dsimp only
    rw [Complex.mul_conj, Complex.ofReal_re]
  obtain ⟨h1, h2, h3, -⟩ := C58_formulas hn hh
  refine ⟨fun q r h => ?_, fun pattern r h => ?_, ?_, ?_, fun count rnd final => ?_⟩
  · by_cases hq : q < d.n
    · rw [h1 q hq, ← h, (C33_zero hn ψ).1 hq]
      congr 1
      refine Finset.sum_congr rfl fun j hj => ?_
      rw [hdiag j ((mem_indices hp).1 hj)]
    · obtain ⟨e, he⟩ := (C33_zero (q := q) hn ψ).2 (by omega)
      rw [he] at h; cases h
  · by_cases hok : pattern.length = d.n ∧ ∀ v ∈ pattern, v ≤ 2
    · rw [h2 pattern hok.1 hok.2, ← h, (C33_marginal hn ψ pattern).1 hok]
      unfold bornProb
      congr 1
      refine Finset.sum_congr rfl fun j hj => ?_
      rw [hdiag j ((mem_indices hp).1 hj)]
    · obtain ⟨e, he⟩ := (C33_marginal hn ψ pattern).2 hok
      rw [he] at h; cases h
  · rw [h3, (C57_entropy_partial hn ψ).1]
    unfold shannon
    congr 1
    refine Finset.sum_congr rfl fun j hj => ?_
    rw [hdiag j ((mem_indices hp).1 hj)]
    by_cases h0 : Complex.normSq (ψ j) = 0
    · rw [if_pos h0, h0, if_neg (lt_irrefl _)]
    · rw [if_neg h0, if_pos (lt_of_le_of_ne (Complex.normSq_nonneg _) (Ne.symm h0))]
  · rw [purity_eq hn hh]
    congr 1
    have hns : ∀ i ∈ indices (2 ^ d.n), ∑ j ∈ indices (2 ^ d.n), Complex.normSq (d.raw (i, j)) =
        Complex.normSq (ψ i) * normSq (2 ^ d.n) ψ := by
      intro i hi
      unfold Spec.normSq
      rw [Finset.mul_sum]
      refine Finset.sum_congr rfl fun j hj => ?_
      rw [hψ (i, j) ⟨(mem_indices hp).1 hi, (mem_indices hp).1 hj⟩]
      unfold projector
      dsimp only
      rw [Complex.normSq_mul, Complex.normSq_conj]
    rw [Finset.sum_congr rfl hns, ← Finset.sum_mul, sq]
    rfl
  · rw [samplesM hn hh (fun j hj => by rw [hdiag j hj]; exact Complex.normSq_nonneg _)]
    unfold Samples
    have e : stackedProb d.n (diagVector d) = stackedProb d.n ψ := by
      unfold stackedProb
      apply scanl_congr
      intro i hi b
      rw [List.mem_range] at hi
      have hi' : (BitVec.ofNat 64 i).toNat < 2 ^ d.n := by rw [toNat_ofNat_pow hn hi]; exact hi
      rw [normSq_diagVector (by rw [hdiag _ hi']; exact Complex.normSq_nonneg _), hdiag _ hi']
    rw [e]

/-- **C58 (sampling).** With uniform numbers in `[0, 1)`, sampling a matrix of trace 1 with a non-negative diagonal returns exactly one
list: entry `i` is the valid index `k` for which the `i`-th number lies in `[F(k), F(k+1))`, `F` being the cumulative sums of the diagonal. -/
theorem C58_sampling {d : DM} (hn : d.n ≤ 63) (hh : d.hermitian = true) (hpos : ∀ j : U64, j.toNat < 2 ^ d.n → 0 ≤ (d.raw (j, j)).re)
    (h1 : (traceOf (2 ^ d.n) d.raw).re = 1) (count : Nat) {rnd : Nat → Nat → ℝ} (hr : ∀ k i, 0 ≤ rnd k i ∧ rnd k i < 1) :
    ∃ final, d.Samples count rnd final ∧ (∀ other, d.Samples count rnd other → other = final) ∧ final.length = count ∧
      ∀ i (hi : i < final.length), final[i] < 2 ^ d.n ∧
        ∑ k ∈ Finset.range final[i], (d.raw (BitVec.ofNat 64 k, BitVec.ofNat 64 k)).re ≤ rnd 0 i ∧
        rnd 0 i < ∑ k ∈ Finset.range (final[i] + 1), (d.raw (BitVec.ofNat 64 k, BitVec.ofNat 64 k)).re := by
  obtain ⟨final, hs, hu, hl, hall⟩ := C34_sampling hn (ψ := diagVector d) (by rw [normSq_diag hn hpos, h1]) count hr
  refine ⟨final, (samplesM hn hh hpos _ _ _).2 hs, fun other ho => hu other ((samplesM hn hh hpos _ _ _).1 ho), hl, fun i hi => ?_⟩
  obtain ⟨a, b, c, -⟩ := hall i hi
  rw [cumProb_diag hn hpos (by omega)] at b
  rw [cumProb_diag hn hpos (by omega)] at c
  exact ⟨a, b, c⟩

/-- **C58 (calls that throw).** Without the flag every probability read-out throws; so do bad qubits and patterns. -/
theorem C58_throws (d : DM) :
    (d.hermitian = false → (∃ e, d.purity = .error (.throw e)) ∧ (∃ e, d.entropy = .error (.throw e)) ∧
      (∀ q, ∃ e, d.zeroProbability q = .error (.throw e)) ∧ (∀ pattern, ∃ e, d.marginalProbability pattern = .error (.throw e)) ∧
      ∀ count rnd final, ¬ d.Samples count rnd final) ∧
    (∀ q, d.n ≤ q → ∃ e, d.zeroProbability q = .error (.throw e)) ∧
    (∀ pattern : List Nat, ¬ (pattern.length = d.n ∧ ∀ v ∈ pattern, v ≤ 2) → ∃ e, d.marginalProbability pattern = .error (.throw e)) := by
  refine ⟨fun hf => ⟨?_, ?_, fun q => ?_, fun pattern => ?_, ?_⟩, fun q hq => ?_, fun pattern h => ?_⟩
  · unfold DM.purity; rw [if_pos hf]; exact ⟨_, rfl⟩
  · unfold DM.entropy; rw [if_pos hf]; exact ⟨_, rfl⟩
  · unfold DM.zeroProbability
    split
    · exact ⟨_, rfl⟩
    · exact ⟨_, rfl⟩
  · unfold DM.marginalProbability
    split
    · exact ⟨_, rfl⟩
    · exact ⟨_, rfl⟩
  · rintro count rnd final ⟨h, -⟩
    rw [hf] at h; cases h
  · unfold DM.zeroProbability; rw [if_pos hq]; exact ⟨_, rfl⟩
  · unfold DM.marginalProbability
    by_cases hl : pattern.length ≠ d.n
    · rw [if_pos hl]; exact ⟨_, rfl⟩
    · rw [if_neg hl]
      split
      · exact ⟨_, rfl⟩
      · have : ∃ v ∈ pattern, 2 < v := by
          by_contra hc
          push Not at hc
          exact h ⟨not_not.1 hl, hc⟩
        obtain ⟨e, he⟩ := measuredTargets_bad 0 pattern this
        exact ⟨e, by rw [he]; rfl⟩

/-- the maximally mixed state of one qubit meets the hypotheses of the sampling theorem -/
example : ∃ d : DM, d.n ≤ 63 ∧ d.hermitian = true ∧ (∀ j : U64, j.toNat < 2 ^ d.n → 0 ≤ (d.raw (j, j)).re) ∧
    (traceOf (2 ^ d.n) d.raw).re = 1 := by
  refine ⟨⟨1, true, fun p => if p.1 = p.2 then ((1 / 2 : ℝ) : ℂ) else 0⟩, by norm_num, rfl, fun j _ => ?_, ?_⟩
  · simp
  · unfold traceOf
    simp

/-- the projector of an unnormalised vector of three qubits meets the hypotheses of `C58_pure` and `C50_pure` -/
example : ∃ (d : DM) (ψ : U64 → ℂ), d.n ≤ 63 ∧ d.hermitian = true ∧ (∀ p, CellOf d.n p → d.raw p = projector ψ p) ∧ ψ 5 = 5 * Complex.I :=
  ⟨⟨3, true, projector fun j => j.toNat * Complex.I⟩, fun j => j.toNat * Complex.I, by norm_num, rfl, fun _ _ => rfl, by
    have : (5 : U64).toNat = 5 := rfl
    simp [this]⟩

/-! ## C59: setting -/

/-- **C59 (setters and loads).** Each call that returns stores exactly the documented matrix. -/
theorem C59_setters {d d' : DM} (hn : d.n < 32) :
    (d.Does .setZeroState d' → ∀ p, CellOf d.n p → d'.raw p = if p.1 = 0 ∧ p.2 = 0 then 1 else 0) ∧
    (d.Does .setZeroNormState d' → ∀ p, CellOf d.n p → d'.raw p = 0) ∧
    (∀ b, d.Does (.setBasis b) d' → b < 2 ^ d.n ∧ ∀ p, CellOf d.n p → d'.raw p = if p.1.toNat = b ∧ p.2.toNat = b then 1 else 0) ∧
    (∀ r c z, d.Does (.setCoherence r c z) d' → r < 2 ^ d.n ∧ c < 2 ^ d.n ∧
      ∀ p, CellOf d.n p → d'.raw p = if p.1.toNat = r ∧ p.2.toNat = c then z else d.raw p) ∧
    (∀ n ψ, d.Does (.loadVector n ψ) d' → n = d.n ∧ ∀ p, CellOf d.n p → d'.raw p = projector ψ p) ∧
    (∀ o, d.Does (.loadDM o) d' → o.n = d.n ∧ ∀ p, CellOf d.n p → d'.raw p = o.raw p) ∧
    (∀ rows cols entry fl, d.Does (.loadMatrix rows cols entry fl) d' →
      rows = 2 ^ d.n ∧ cols = 2 ^ d.n ∧ ∀ p, CellOf d.n p → d'.raw p = entry p) := by
  have hp : (2 : Nat) ^ d.n < 2 ^ 64 := Nat.pow_lt_pow_right (by norm_num) (by omega)
  have hcell : ∀ (p : U64 × U64) (a b : Nat), a < 2 ^ d.n → b < 2 ^ d.n → (p = (BitVec.ofNat 64 a, BitVec.ofNat 64 b) ↔ p.1.toNat = a ∧ p.2.toNat = b) := by
    intro p a b ha hb
    constructor
    · rintro rfl
      exact ⟨Verif.toNat_ofNat_lt (by omega), Verif.toNat_ofNat_lt (by omega)⟩
    · rintro ⟨rfl, rfl⟩
      exact Prod.ext (by simp) (by simp)
  refine ⟨fun h p hp' => ?_, fun h p hp' => ?_, fun b h => ?_, fun r c z h => ?_, fun n ψ h => ?_, fun o h => ?_, fun rows cols entry fl h => ?_⟩
  · rw [does_unique h (does_fill hn rfl)]; exact if_pos hp'
  · rw [does_unique h (does_fill hn rfl)]; exact if_pos hp'
  · obtain ⟨u, hu, -⟩ := id h
    simp only [DMOp.exec] at hu
    by_cases hb : b ≥ 2 ^ d.n
    · rw [if_pos hb] at hu; cases hu
    refine ⟨by omega, fun p hp' => ?_⟩
    rw [does_unique h (does_fill hn (by simp only [DMOp.exec]; rw [if_neg hb]))]
    refine (if_pos hp').trans ?_
    have := hcell p b b (by omega) (by omega)
    rw [Prod.ext_iff] at this
    exact if_congr this rfl rfl
  · obtain ⟨u, hu, -⟩ := id h
    simp only [DMOp.exec] at hu
    by_cases hb : r ≥ 2 ^ d.n ∨ c ≥ 2 ^ d.n
    · rw [if_pos hb] at hu; cases hu
    push Not at hb
    refine ⟨hb.1, hb.2, fun p hp' => ?_⟩
    rw [does_unique h (does_setCoherence (by omega) z hb.1 hb.2)]
    dsimp only
    rw [Function.update_apply]
    exact if_congr (hcell p r c hb.1 hb.2) rfl rfl
  · obtain ⟨u, hu, -⟩ := id h
    simp only [DMOp.exec] at hu
    by_cases hb : n ≠ d.n
    · rw [if_pos hb] at hu; cases hu
    refine ⟨not_not.1 hb, fun p hp' => ?_⟩
    rw [does_unique h (does_fill hn (by simp only [DMOp.exec]; rw [if_neg hb]))]
    exact if_pos hp'
  · obtain ⟨u, hu, -⟩ := id h
    simp only [DMOp.exec] at hu
    by_cases hb : o.n ≠ d.n
    · rw [if_pos hb] at hu; cases hu
    refine ⟨not_not.1 hb, fun p hp' => ?_⟩
    rw [does_unique h (does_fill hn (by simp only [DMOp.exec]; rw [if_neg hb]))]
    exact if_pos hp'
  · obtain ⟨u, hu, -⟩ := id h
    simp only [DMOp.exec] at hu
    by_cases hb : rows ≠ 2 ^ d.n ∨ cols ≠ 2 ^ d.n
    · rw [if_pos hb] at hu; cases hu
    have hb' := hb
    push Not at hb'
    refine ⟨hb'.1, hb'.2, fun p hp' => ?_⟩
    rw [does_unique h (does_fill hn (by simp only [DMOp.exec]; rw [if_neg hb]))]
    exact if_pos hp'

/-- **C59 (arithmetic).** `add_density_matrix_with_coef` adds `coef · other`, `multiply_coef` multiplies, `normalize` divides by the
trace, so that the trace becomes 1. -/
theorem C59_arithmetic {d d' : DM} (hn : d.n < 32) :
    (∀ c o, d.Does (.addWithCoef c o) d' → o.n = d.n ∧ ∀ p, CellOf d.n p → d'.raw p = d.raw p + c * o.raw p) ∧
    (∀ c, d.Does (.multiplyCoef c) d' → ∀ p, CellOf d.n p → d'.raw p = c * d.raw p) ∧
    (d.Does .normalize d' → traceOf (2 ^ d.n) d.raw ≠ 0 ∧ (∀ p, CellOf d.n p → d'.raw p = d.raw p / traceOf (2 ^ d.n) d.raw) ∧
      d'.trace = .ok 1) := by
  refine ⟨fun c o h => ?_, fun c h p hp' => ?_, fun h => ?_⟩
  · obtain ⟨u, hu, -⟩ := id h
    simp only [DMOp.exec] at hu
    by_cases hb : o.n ≠ d.n
    · rw [if_pos hb] at hu; cases hu
    refine ⟨not_not.1 hb, fun p hp' => ?_⟩
    rw [does_unique h (does_map hn (by simp only [DMOp.exec]; rw [if_neg hb]))]
    exact if_pos hp'
  · rw [does_unique h (does_map hn rfl)]
    exact (if_pos hp').trans (mul_comm _ _)
  · obtain ⟨u, hu, -⟩ := id h
    simp only [DMOp.exec] at hu
    rw [trace_eq (by omega), ok_bind] at hu
    by_cases ht : traceOf (2 ^ d.n) d.raw = 0
    · rw [if_pos ht] at hu; cases hu
    rw [does_unique h (does_normalize hn ht)]
    refine ⟨ht, fun p hp' => if_pos hp', ?_⟩
    rw [trace_eq (by dsimp only; omega)]
    congr 1
    dsimp only
    have : traceOf (2 ^ d.n) (setCells (2 ^ d.n) (fun p => d.raw p / traceOf (2 ^ d.n) d.raw) d.raw) =
        traceOf (2 ^ d.n) d.raw / traceOf (2 ^ d.n) d.raw := by
      conv_rhs => rw [traceOf, Finset.sum_div]
      conv_lhs => rw [traceOf]
      refine Finset.sum_congr rfl fun i hi => ?_
      rw [Finset.mem_range] at hi
      have hi' : (BitVec.ofNat 64 i).toNat < 2 ^ d.n := by
        rw [Verif.toNat_ofNat_lt (lt_of_lt_of_le hi (Nat.pow_le_pow_right (by norm_num) (by omega)))]; exact hi
      rw [setCells_in hi' hi']
      rfl
    rw [this, div_self ht]

/-- **C59 (calls that return).** The setters return on every matrix, the others when sizes and indices fit; `normalize` when the
trace is not zero. -/
theorem C59_total {d : DM} (hn : d.n < 32) :
    (∃ d', d.Does .setZeroState d') ∧ (∃ d', d.Does .setZeroNormState d') ∧ (∀ b, b < 2 ^ d.n → ∃ d', d.Does (.setBasis b) d') ∧
    (∀ r c z, r < 2 ^ d.n → c < 2 ^ d.n → ∃ d', d.Does (.setCoherence r c z) d') ∧
    (∀ r c z, r < 2 ^ d.n → c < 2 ^ d.n → ∃ d', d.Does (.setCoherencePair r c z) d') ∧
    (∀ ψ, ∃ d', d.Does (.loadVector d.n ψ) d') ∧ (∀ o : DM, o.n = d.n → ∃ d', d.Does (.loadDM o) d') ∧
    (∀ c, ∀ o : DM, o.n = d.n → ∃ d', d.Does (.addWithCoef c o) d') ∧ (∀ c, ∃ d', d.Does (.multiplyCoef c) d') ∧
    (traceOf (2 ^ d.n) d.raw ≠ 0 → ∃ d', d.Does .normalize d') := by
  refine ⟨⟨_, does_fill hn rfl⟩, ⟨_, does_fill hn rfl⟩, fun b hb => ⟨_, does_fill hn (by simp only [DMOp.exec]; rw [if_neg (by omega)])⟩,
    fun r c z hr hc => ⟨_, does_setCoherence (by omega) z hr hc⟩, fun r c z hr hc => ⟨_, does_setPair (by omega) z hr hc⟩,
    fun ψ => ⟨_, does_fill hn (by simp only [DMOp.exec]; rw [if_neg (by simp)])⟩,
    fun o ho => ⟨_, does_fill hn (by simp only [DMOp.exec]; rw [if_neg (by simp [ho])])⟩,
    fun c o ho => ⟨_, does_map hn (by simp only [DMOp.exec]; rw [if_neg (by simp [ho])])⟩,
    fun c => ⟨_, does_map hn rfl⟩, fun ht => ⟨_, does_normalize hn ht⟩⟩

/-- **C59 (reading back).** `get_coherence_at` returns the stored element and throws outside the matrix. -/
theorem C59_coherence {d : DM} (hn : d.n < 64) (row col : Nat) :
    (row < 2 ^ d.n ∧ col < 2 ^ d.n → d.coherence row col = .ok (d.raw (BitVec.ofNat 64 row, BitVec.ofNat 64 col))) ∧
    (¬ (row < 2 ^ d.n ∧ col < 2 ^ d.n) → ∃ e, d.coherence row col = .error (.throw e)) := by
  refine ⟨fun h => ?_, fun h => ?_⟩
  · have hb : ¬ (row ≥ 2 ^ d.n ∨ col ≥ 2 ^ d.n) := by omega
    unfold DM.coherence readM
    rw [if_neg hb]
    exact if_pos (inMat_ofNat hn hb)
  · unfold DM.coherence
    rw [if_pos (by omega)]
    exact ⟨_, rfl⟩

example : demoDM.n < 32 := by norm_num [demoDM]

end Verif.Props
