import Verif.Proofs.Channel
import Verif.Proofs.QasmStmt
import Mathlib.Analysis.SpecificLimits.Normed

/-! # C79: the average effect of the noise gates -/

namespace Verif.Props
open Verif Verif.Spec Verif.Model Verif.Proofs MeasureTheory ProbabilityTheory
attribute [-simp] BitVec.getLsbD_eq_getElem

/-- the noise gate of each kind, as made by the factories -/
noncomputable def makeNoise : NoiseKind → Nat → ℝ → Res Gate
  | .bitFlip => mkBitFlipNoise
  | .dephasing => mkDephasingNoise
  | .bitFlipAndDephasing => mkBitFlipAndDephasingNoise
  | .depolarizing => mkDepolarizingNoise

/-- the circuit after `m` calls of `add_gate` with the same gate -/
def addTimes (g : Gate) : Nat → Circuit → Circuit
  | 0, C => C
  | m + 1, C => (addTimes g m C).addGate g

/-- a gate on qubit `q`, or the identity -/
def onTarget (q : Nat) : Option Gate1 → GateDesc
  | none => .ident
  | some k => .one k q [] []

theorem makeNoise_line {k : NoiseKind} {q : Nat} (hq : q < 64) {p : ℝ} {g : Gate} (h : makeNoise k q p = .ok g) :
    (noiseLine k q p).instr.build = .ok (.inl g) := by
  have key : ∀ (ks : List (Option Gate1)) (ps : List ℝ),
      (do let gs ← pauliComponents q ks; mkProbabilistic (ps.map some) gs) = .ok g →
      (Instr.choice ps (ks.map (onTarget q))).build = .ok (.inl g) := by
    intro ks ps hg
    have hm : ∃ us, (ks.map (onTarget q)).mapM GateDesc.build = .ok us ∧ pauliComponents q ks = .ok (us.map Gate.det) := by
      clear hg
      induction ks with
      | nil => exact ⟨[], rfl, rfl⟩
      | cons k ks ih =>
        obtain ⟨us, h1, h2⟩ := ih
        rw [List.map_cons, List.mapM_cons, h1]
        unfold pauliComponents
        rw [h2]
        cases k with
        | none => exact ⟨.ident :: us, rfl, rfl⟩
        | some k =>
          refine ⟨.one k ⟨1#64 <<< q, 0, 0⟩ :: us, ?_, ?_⟩
          · rw [show (onTarget q (some k)).build = _ from build_onTarget k hq]; rfl
          · dsimp only; rw [build_onTarget k hq]; rfl
    obtain ⟨us, h1, h2⟩ := hm
    rw [h2, ok_bind] at hg
    show (do
      let gs ← (ks.map (onTarget q)).mapM GateDesc.build
      let g ← mkProbabilistic (ps.map some) (gs.map .det)
      pure (Sum.inl g) : Res Item) = _
    rw [h1, ok_bind, hg]; rfl
  cases k
  · exact key [some .X, none] [p, 1 - p] h
  · exact key [some .Z, none] [p, 1 - p] h
  · exact key [some .Y, some .X, some .Z, none] [p * p, p * (1 - p), p * (1 - p), (1 - p) * (1 - p)] h
  · exact key [some .X, some .Y, some .Z, none] [p / 3, p / 3, p / 3, 1 - p] h

/-- the noise gate exists for every error rate between 0 and 1 -/
theorem makeNoise_ok (k : NoiseKind) {q : Nat} (hq : q < 64) {p : ℝ} (h0 : 0 ≤ p) (h1 : p ≤ 1) : ∃ g, makeNoise k q p = .ok g := by
  obtain ⟨⟨a, ha, -⟩, ⟨b, hb, -⟩, ⟨c, hc, -⟩, d, hd, -⟩ := C37_channels hq h0 h1
  cases k
  · exact ⟨a, ha⟩
  · exact ⟨b, hb⟩
  · exact ⟨c, hc⟩
  · exact ⟨d, hd⟩

theorem clear_noise {q m : Nat} {k : NoiseKind} {p : ℝ} : ∀ {ls : List Line} {ms : List Nat}, Clear ms ls → q ∉ ms →
    (∀ l ∈ ls, ∀ c, l.instr ≠ .measure q c false) → Clear ms (ls ++ List.replicate m (noiseLine k q p)) := by
  intro ls
  induction ls with
  | nil =>
    intro ms _ hq _
    rw [List.nil_append]
    induction m with
    | zero => trivial
    | succ m ih =>
      rw [List.replicate_succ]
      refine ⟨?_, ih⟩
      intro x hx hmem
      have : (noiseLine k q p).instr.qubits ⊆ [q] := by
        intro y hy
        cases k <;> simpa [noiseLine, noiseGates, Instr.qubits, qubitsOf, targetsOf, controlsOf, ctrlList] using hy
      exact hq (by rwa [← List.mem_singleton.1 (this hmem)])
  | cons l ls ih =>
    intro ms hc hq hne
    refine ⟨hc.1, ih hc.2 ?_ fun l hl => hne l (List.mem_cons_of_mem _ hl)⟩
    have := hne l List.mem_cons_self
    split
    · rename_i a c e
      rintro (hx | hx)
      · exact this c (by rw [e])
      · rename_i hx; exact hq hx
    · exact hq

/-- **C79 (circuits with noise).** A circuit stays fit for the averages of C74 when noise gates are added to it, on a qubit that has not
been measured without reset. -/
theorem C79_regular {ls : List Line} {C : Circuit} {n len : Nat} {θ : String → Option ℝ} (h : Regular ls C n θ len) (hn : n < 64) {q : Nat}
    (hq : q < n) (hm : ∀ l ∈ ls, ∀ c, l.instr ≠ .measure q c false) {p : ℝ} (h0 : 0 ≤ p) (h1 : p ≤ 1) {k : NoiseKind} {g : Gate}
    (hg : makeNoise k q p = .ok g) (m : Nat) :
    Regular (ls ++ List.replicate m (noiseLine k q p)) (addTimes g m C) n θ len := by
  have hb := makeNoise_line (by omega) hg
  have hmem : ∀ l ∈ ls ++ List.replicate m (noiseLine k q p), l ∈ ls ∨ l = noiseLine k q p := by
    intro l hl
    rcases List.mem_append.1 hl with h | h
    · exact .inl h
    · exact .inr (List.eq_of_mem_replicate h)
  refine ⟨⟨?_, ?_, ?_⟩, ?_, ?_, ?_, clear_noise h.clear (by simp) hm, ?_⟩
  · clear hmem
    induction m with
    | zero => simpa [addTimes] using h.circuit.built
    | succ m ih =>
      rw [List.replicate_succ', ← List.append_assoc, build_snoc ih]
      unfold addLine
      rw [hb, ok_bind]
      rfl
  · intro l hl
    rcases hmem l hl with hl | rfl
    · exact h.circuit.args l hl
    · cases k <;> simp [noiseLine, noiseGates, Instr.OK, DescOK]
  · intro l hl
    rcases hmem l hl with hl | rfl
    · exact h.circuit.qubits l hl
    · cases k <;> simp [noiseLine, noiseGates, Instr.qubits, qubitsOf, targetsOf, controlsOf, ctrlList, hq]
  · intro l hl
    rcases hmem l hl with hl | rfl
    · exact h.keys l hl
    · intro k hk; simp [noiseLine, Instr.key?] at hk
  · intro l hl
    rcases hmem l hl with hl | rfl
    · exact h.unitary l hl
    · cases k <;> simp [noiseLine, noiseGates, Unitaries, UnitaryDesc]
  · intro l hl
    rcases hmem l hl with hl | rfl
    · exact h.register l hl
    · exact ⟨fun q c r h => by simp [noiseLine] at h, fun f h => by simp [noiseLine] at h⟩
  · intro l hl
    rcases hmem l hl with hl | rfl
    · exact h.fair l hl
    · exact (noiseProbs_facts h0 h1 k).2

variable {Ω : Type*} [MeasurableSpace Ω] {μ : Measure Ω} {rnd : ℕ → Ω → ℝ}

/-- **C79 (density matrix).** Adding `m` noise gates of one kind with error rate `p` on qubit `q` to a circuit changes the average density
matrix of its runs by the textbook channel of that kind, with the error rate `1 - 2p' = (1 - 2p)^m` or `1 - 4p'/3 = (1 - 4p/3)^m`; for
every contents of the classical register separately. -/
theorem C79_density {ls : List Line} {C : Circuit} {L n : Nat} {θ : String → Option ℝ} {ψ : U64 → ℂ} {reg : List Bool}
    (h : Regular ls C n θ reg.length) (hL : LanesOK L) (hn : n < 64) (hnorm : normSq (2 ^ n) ψ = 1) (hd : UniformDraws μ rnd) {q : Nat}
    (hq : q < n) (hm : ∀ l ∈ ls, ∀ c, l.instr ≠ .measure q c false) {p : ℝ} (h0 : 0 ≤ p) (h1 : p ≤ 1) {k : NoiseKind} {g : Gate}
    (hg : makeNoise k q p = .ok g) (m : Nat) {before after : Ω → Context}
    (hb : ∀ᵐ ω ∂μ, C.RunsOn L n (fun i => rnd i ω) θ ψ reg (before ω) none)
    (ha : ∀ᵐ ω ∂μ, (addTimes g m C).RunsOn L n (fun i => rnd i ω) θ ψ reg (after ω) none) (r : List Bool) {i j : U64}
    (hi : i.toNat < 2 ^ n) (hj : j.toNat < 2 ^ n) :
    ∫ ω, (if (after ω).reg = r then (after ω).psi i * (starRingEnd ℂ) ((after ω).psi j) else 0) ∂μ =
      k.channel q (k.rate p m)
        (fun i j => ∫ ω, (if (before ω).reg = r then (before ω).psi i * (starRingEnd ℂ) ((before ω).psi j) else 0) ∂μ) i j := by
  rw [(C74_density (C79_regular h hn hq hm h0 h1 hg m) hL hn hnorm hd ha r hi hj).2, density_repeat hn hq h0 h1 k _ _ _ _ hi hj]
  exact channel_congr (by omega) hq k _ (fun i j hi hj => (C74_density h hL hn hnorm hd hb r hi hj).2.symm) hi hj

/-- what the channels of the specification say for a single noise gate -/
theorem channel_explicit (q : Nat) (p : ℝ) (ρ : Elements) (i j : U64) :
    NoiseKind.bitFlip.channel q (NoiseKind.bitFlip.rate p 1) ρ i j = (1 - p) * ρ i j + p * ρ (inverted q i) (inverted q j) ∧
    (i.getLsbD q = j.getLsbD q → NoiseKind.dephasing.channel q (NoiseKind.dephasing.rate p 1) ρ i j = ρ i j) ∧
    (i.getLsbD q ≠ j.getLsbD q → NoiseKind.dephasing.channel q (NoiseKind.dephasing.rate p 1) ρ i j = (1 - 2 * p) * ρ i j) ∧
    (i.getLsbD q ≠ j.getLsbD q → NoiseKind.depolarizing.channel q (NoiseKind.depolarizing.rate p 1) ρ i j = (1 - 4 * p / 3) * ρ i j) := by
  have e1 : (1 - (1 - 2 * p) ^ 1) / 2 = p := by ring
  have e2 : 3 / 4 * (1 - (1 - 4 * p / 3) ^ 1) = p := by ring
  refine ⟨?_, fun h => ?_, fun h => ?_, fun h => ?_⟩
  · simp only [NoiseKind.rate, NoiseKind.channel, e1, bitFlipped]
  · simp only [NoiseKind.rate, NoiseKind.channel, e1, dephased, if_pos h]
  · simp only [NoiseKind.rate, NoiseKind.channel, e1, dephased, if_neg h]
  · simp only [NoiseKind.rate, NoiseKind.channel, e2, depolarized, replaced, if_neg h, mul_zero, add_zero]

/-- **C79 (Pauli observables).** `m` noise gates multiply the average of a Pauli observable by the `m`-th power of a number that depends
only on the kind of noise and on the letter of the observable on the qubit. -/
theorem C79_pauli {ls : List Line} {C : Circuit} {L n : Nat} {θ : String → Option ℝ} {ψ : U64 → ℂ} {reg : List Bool}
    (h : Regular ls C n θ reg.length) (hL : LanesOK L) (hn : n < 64) (hnorm : normSq (2 ^ n) ψ = 1) (hd : UniformDraws μ rnd) {q : Nat}
    (hq : q < n) (hm : ∀ l ∈ ls, ∀ c, l.instr ≠ .measure q c false) {p : ℝ} (h0 : 0 ≤ p) (h1 : p ≤ 1) {k : NoiseKind} {g : Gate}
    (hg : makeNoise k q p = .ok g) (m : Nat) {before after : Ω → Context}
    (hb : ∀ᵐ ω ∂μ, C.RunsOn L n (fun i => rnd i ω) θ ψ reg (before ω) none)
    (ha : ∀ᵐ ω ∂μ, (addTimes g m C).RunsOn L n (fun i => rnd i ω) θ ψ reg (after ω) none) {t : PauliOp} (ht : PauliFits t n) :
    ∫ ω, Spec.inner (2 ^ n) (after ω).psi (pauliOperator t (after ω).psi) ∂μ =
      (k.damping p (letterAt t q) : ℂ) ^ m * ∫ ω, Spec.inner (2 ^ n) (before ω).psi (pauliOperator t (before ω).psi) ∂μ := by
  have hs : ∀ φ : U64 → ℂ, sumOperator [t] φ = pauliOperator t φ := fun φ => by funext j; simp [sumOperator]
  have hD : Quadratic n fun b => Spec.inner (2 ^ n) b.psi (pauliOperator t b.psi) := by
    have := quadratic_expectation hn (o := ⟨[t], true, false⟩) (fun x hx => by simp only [List.mem_singleton] at hx; rw [hx]; exact ht)
    simpa only [hs] using this
  rw [(average_quadratic (C79_regular h hn hq hm h0 h1 hg m) hL hn hnorm hd ha hD).2, (average_quadratic h hL hn hnorm hd hb hD).2,
    expect_repeat hn hq h0 h1 k _ _ ht]

/-- **C79 (observables).** The same for sums of Pauli operators: every term is damped on its own. -/
theorem C79_observable {ls : List Line} {C : Circuit} {L n : Nat} {θ : String → Option ℝ} {ψ : U64 → ℂ} {reg : List Bool}
    (h : Regular ls C n θ reg.length) (hL : LanesOK L) (hn : n < 64) (hnorm : normSq (2 ^ n) ψ = 1) (hd : UniformDraws μ rnd) {q : Nat}
    (hq : q < n) (hm : ∀ l ∈ ls, ∀ c, l.instr ≠ .measure q c false) {p : ℝ} (h0 : 0 ≤ p) (h1 : p ≤ 1) {k : NoiseKind} {g : Gate}
    (hg : makeNoise k q p = .ok g) (m : Nat) {before after : Ω → Context}
    (hb : ∀ᵐ ω ∂μ, C.RunsOn L n (fun i => rnd i ω) θ ψ reg (before ω) none)
    (ha : ∀ᵐ ω ∂μ, (addTimes g m C).RunsOn L n (fun i => rnd i ω) θ ψ reg (after ω) none) {o : Op} (ho : OpFits o n) :
    ∫ ω, Spec.inner (2 ^ n) (after ω).psi (sumOperator o.terms (after ω).psi) ∂μ =
      (o.terms.map fun t => (k.damping p (letterAt t q) : ℂ) ^ m *
        ∫ ω, Spec.inner (2 ^ n) (before ω).psi (pauliOperator t (before ω).psi) ∂μ).sum := by
  have hs : ∀ (t : PauliOp) (φ : U64 → ℂ), sumOperator [t] φ = pauliOperator t φ := fun t φ => by funext j; simp [sumOperator]
  have hI : ∀ t ∈ o.terms, Integrable (fun ω => Spec.inner (2 ^ n) (after ω).psi (pauliOperator t (after ω).psi)) μ := by
    intro t ht
    have hq2 := quadratic_expectation hn (o := ⟨[t], true, false⟩) (fun x hx => by simp only [List.mem_singleton] at hx; rw [hx]; exact ho t ht)
    have := (average_quadratic (C79_regular h hn hq hm h0 h1 hg m) hL hn hnorm hd ha hq2).1
    simpa only [hs] using this
  have hsum : ∀ φ : U64 → ℂ, Spec.inner (2 ^ n) φ (sumOperator o.terms φ) =
      (o.terms.map fun t => Spec.inner (2 ^ n) φ (pauliOperator t φ)).sum := by
    intro φ
    rw [sumOperator_eq, inner_opAct]
    simp only [pauliOperator_eq]
  simp only [hsum]
  have hpt := fun t (ht : t ∈ o.terms) => C79_pauli h hL hn hnorm hd hq hm h0 h1 hg m hb ha (ho t ht)
  generalize o.terms = ts at hI hpt
  induction ts with
  | nil => simp
  | cons t ts ih =>
    simp only [List.map_cons, List.sum_cons]
    have hrest : Integrable (fun ω => (ts.map fun t => Spec.inner (2 ^ n) (after ω).psi (pauliOperator t (after ω).psi)).sum) μ := by
      have := fun t (ht : t ∈ ts) => hI t (List.mem_cons_of_mem _ ht)
      clear ih hI hpt
      induction ts with
      | nil => simp
      | cons u ts ih =>
        simp only [List.map_cons, List.sum_cons]
        exact (this u List.mem_cons_self).add (ih fun t ht => this t (List.mem_cons_of_mem _ ht))
    rw [integral_add (hI t List.mem_cons_self) hrest, hpt t List.mem_cons_self,
      ih (fun t ht => hI t (List.mem_cons_of_mem _ ht)) fun t ht => hpt t (List.mem_cons_of_mem _ ht)]

/-- **C79 (many noise gates).** With depolarizing noise of a positive error rate the qubit tends to the maximally mixed state, whatever
the circuit did before. -/
theorem C79_limit {ls : List Line} {C : Circuit} {L n : Nat} {θ : String → Option ℝ} {ψ : U64 → ℂ} {reg : List Bool}
    (h : Regular ls C n θ reg.length) (hL : LanesOK L) (hn : n < 64) (hnorm : normSq (2 ^ n) ψ = 1) (hd : UniformDraws μ rnd) {q : Nat}
    (hq : q < n) (hm : ∀ l ∈ ls, ∀ c, l.instr ≠ .measure q c false) {p : ℝ} (h0 : 0 < p) (h1 : p ≤ 1) {g : Gate}
    (hg : makeNoise .depolarizing q p = .ok g) {before : Ω → Context} {after : ℕ → Ω → Context}
    (hb : ∀ᵐ ω ∂μ, C.RunsOn L n (fun i => rnd i ω) θ ψ reg (before ω) none)
    (ha : ∀ m, ∀ᵐ ω ∂μ, (addTimes g m C).RunsOn L n (fun i => rnd i ω) θ ψ reg (after m ω) none) (r : List Bool) {i j : U64}
    (hi : i.toNat < 2 ^ n) (hj : j.toNat < 2 ^ n) :
    Filter.Tendsto (fun m => ∫ ω, (if (after m ω).reg = r then (after m ω).psi i * (starRingEnd ℂ) ((after m ω).psi j) else 0) ∂μ) Filter.atTop
      (nhds (replaced q
        (fun i j => ∫ ω, (if (before ω).reg = r then (before ω).psi i * (starRingEnd ℂ) ((before ω).psi j) else 0) ∂μ) i j)) := by
  have e := fun m => C79_density h hL hn hnorm hd hq hm h0.le h1 hg m hb (ha m) r hi hj
  simp only [e]
  generalize (fun i j : U64 => ∫ ω, (if (before ω).reg = r then (before ω).psi i * (starRingEnd ℂ) ((before ω).psi j) else 0) ∂μ) = ρ
  have ht : Filter.Tendsto (fun m : ℕ => ((1 - 4 * p / 3 : ℝ) : ℂ) ^ m) Filter.atTop (nhds 0) := by
    apply tendsto_pow_atTop_nhds_zero_of_norm_lt_one
    rw [Complex.norm_real, Real.norm_eq_abs, abs_lt]
    constructor <;> linarith
  have he : ∀ m, NoiseKind.depolarizing.channel q (NoiseKind.depolarizing.rate p m) ρ i j =
      ((1 - 4 * p / 3 : ℝ) : ℂ) ^ m * (ρ i j - replaced q ρ i j) + replaced q ρ i j := by
    intro m
    simp only [NoiseKind.rate, NoiseKind.channel, depolarized]
    push_cast
    ring
  simp only [he]
  simpa using (ht.mul_const (ρ i j - replaced q ρ i j)).add_const (replaced q ρ i j)

/-- the assumptions hold: a circuit with a measurement and reset, depolarizing noise with rate 1/5 added three times -/
example : ∃ (C : Circuit) (g : Gate) (μ : Measure (ℕ → ℝ)), Regular mixedLines C 1 (fun _ => some 0.3) [false].length ∧
    UniformDraws μ (fun i ω => ω i) ∧ normSq (2 ^ 1) samplePsi = 1 ∧ (∀ l ∈ mixedLines, ∀ c, l.instr ≠ .measure 0 c false) ∧
    makeNoise .depolarizing 0 (1 / 5) = .ok g ∧
    (∃ before : (ℕ → ℝ) → Context, ∀ᵐ ω ∂μ, C.RunsOn 0 1 (fun i => ω i) (fun _ => some 0.3) samplePsi [false] (before ω) none) ∧
    ∃ after : (ℕ → ℝ) → Context, ∀ᵐ ω ∂μ,
      (addTimes g 3 C).RunsOn 0 1 (fun i => ω i) (fun _ => some 0.3) samplePsi [false] (after ω) none := by
  obtain ⟨C, hC⟩ := mixedLines_regular
  obtain ⟨μ, hμ⟩ := uniformDraws_exist
  obtain ⟨g, hg⟩ := makeNoise_ok .depolarizing (q := 0) (by norm_num) (p := 1 / 5) (by norm_num) (by norm_num)
  have hm : ∀ l ∈ mixedLines, ∀ c, l.instr ≠ .measure 0 c false := by
    intro l hl c
    simp only [mixedLines, noisyLines, List.cons_append, List.nil_append, List.mem_cons, List.not_mem_nil, or_false] at hl
    rcases hl with rfl | rfl | rfl | rfl | rfl <;> simp
  obtain ⟨b, hb⟩ := C74_runs hC (Or.inl rfl) (by norm_num) samplePsi_norm hμ
  obtain ⟨a, ha⟩ := C74_runs (C79_regular hC (by norm_num) (by norm_num) hm (by norm_num) (by norm_num) hg 3) (Or.inl rfl) (by norm_num)
    samplePsi_norm hμ
  exact ⟨C, g, μ, hC, hμ, samplePsi_norm, hm, hg, ⟨b, hb.mono fun ω h => (h.2.2 _ _).2 ⟨rfl, rfl⟩⟩,
    a, ha.mono fun ω h => (h.2.2 _ _).2 ⟨rfl, rfl⟩⟩

example : PauliFits ⟨1, 0b1, 0b0⟩ 1 ∧ letterAt ⟨1, 0b1, 0b0⟩ 0 = .X := by
  refine ⟨?_, by decide⟩
  intro q hq
  have : pauliQubits ⟨1, 0b1, 0b0⟩ = [0] := by simp [pauliQubits]; decide
  rw [this] at hq
  simp at hq; omega

end Verif.Props
