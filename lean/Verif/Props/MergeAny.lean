import Verif.Model.MergeAny
import Verif.Proofs.OptimizeActs
import Verif.Props.Merge
import Verif.Props.RandomGate

/-! # C41: `merge_gate` with measurements and probabilistic gates -/

namespace Verif.Props
open Verif Verif.Spec Verif.Model Verif.Proofs
attribute [-simp] BitVec.getLsbD_eq_getElem

/-- **C41, two gates with a matrix**: `merge_gate` on `Gate` objects is the function of the other theorems of C41. -/
theorem C41_deterministic (g1 g2 : UGate) :
    (∀ g φ, mergeGate g1 g2 = .ok (g, φ) ↔ mergeAny (.det g1) (.det g2) = .ok (.det g, φ)) ∧
    ∀ e, mergeGate g1 g2 = .error e ↔ mergeAny (.det g1) (.det g2) = .error e := by
  unfold mergeAny
  dsimp only
  cases h : mergeGate g1 g2 with
  | error e' =>
    refine ⟨fun g φ => ⟨fun h => (by cases h), fun h => (by cases h)⟩, fun e => ⟨fun h => ?_, fun h => ?_⟩⟩
    · cases h; rfl
    · cases h; rfl
  | ok r =>
    obtain ⟨g', φ'⟩ := r
    refine ⟨fun g φ => ⟨fun h => ?_, fun h => ?_⟩, fun e => ⟨fun h => (by cases h), fun h => (by cases h)⟩⟩
    · cases h; rfl
    · cases h; rfl

/-- **C41, probabilistic gates** are not merged: an exception, whatever the other gate is. -/
theorem C41_probabilistic (t : ProbTable UGate) (g : Gate) :
    (∃ msg, mergeAny (.prob t) g = .error (.throw msg)) ∧ ∃ msg, mergeAny g (.prob t) = .error (.throw msg) := by
  constructor
  · exact ⟨_, by unfold mergeAny; rfl⟩
  · cases g <;> exact ⟨_, by unfold mergeAny; rfl⟩

/-- the described gate only multiplies the state with the phase `φ` and says so by its type: the identity gate, or an uncontrolled global
phase -/
def PhaseOnly (d : GateDesc) (φ : ℝ) : Prop := d = .ident ∧ φ = 0 ∨ ∃ vs, d = .globalPhase φ [] vs

theorem noControls_iff {ts cs vs : List Nat} {o : Operands} (h : mkOperands ts cs vs = .ok o) : o.c = 0 ↔ cs = [] := by
  have hc := control_list h
  have hp : (sortQ cs).Perm cs := List.mergeSort_perm _ _
  constructor
  · intro h0
    rw [h0, maskToVector_zero] at hc
    rw [← hc] at hp
    exact hp.nil_eq.symm
  · rintro rfl
    apply U64.ext
    intro q _
    have : q ∉ maskToVector o.c := by
      rw [hc]
      intro hm
      exact absurd (hp.subset hm) (by simp)
    rw [mem_maskToVector] at this
    rw [show (0 : U64).getLsbD q = false from BitVec.getLsbD_zero]
    simpa using this

theorem mergeDenseMeasSecond_throws {g : UGate} (hv : Valid g) {target cbit : Nat} {reset : Bool} {m : MeasGate}
    (hm : mkMeas target cbit reset = .ok m) {n : Nat} (hn : n < 64) (hu : ∀ q, UGate.uses g q → q < n) (ht : target < n) :
    ∃ msg, mergeDenseMeasSecond g m = .error (.throw msg) := by
  have hmo := (mkMeas_ok hm).1
  have hmc : m.o.c = 0 := (noControls_iff hmo).2 rfl
  have hmt : ∀ q, m.o.t.getLsbD q = true → q = target := by
    intro q hq
    have h1 := mem_maskToVector.2 hq
    rw [target_list hmo] at h1
    have hp : (sortQ [target]).Perm [target] := List.mergeSort_perm _ _
    simpa using hp.subset h1
  have hcm : commonControls g.operands m.o = 0 := by
    unfold commonControls
    rw [hmc]
    apply U64.ext; intro q _
    simp [BitVec.getLsbD_and]
  set opsm := ((g.operands.t ||| g.operands.c) ||| (m.o.t ||| m.o.c)) &&& ~~~(commonControls g.operands m.o) with hops
  have hb : ∀ q, opsm.getLsbD q = true → q < n := by
    intro q hq
    rw [hops, BitVec.getLsbD_and, BitVec.getLsbD_or, Bool.and_eq_true, Bool.or_eq_true] at hq
    rcases hq.1 with h | h
    · exact hu q h
    · rw [hmc, BitVec.getLsbD_or, Bool.or_eq_true] at h
      rcases h with h | h
      · rw [hmt q h]; exact ht
      · rw [show (0 : U64).getLsbD q = false from BitVec.getLsbD_zero] at h; cases h
  have hlen : (maskToVector opsm).length < 64 := by
    have : (maskToVector opsm).length ≤ (List.range n).length := by
      apply List.Subperm.length_le
      apply List.subperm_of_subset (maskToVector_nodup _)
      intro q hm
      exact List.mem_range.2 (hb q (mem_maskToVector.1 hm))
    rw [List.length_range] at this
    omega
  obtain ⟨m1, e1, a, b, -⟩ := expand_gate (g := g) hv (cm := commonControls g.operands m.o) (cvm := commonControls g.operands m.o &&& g.operands.v)
    (opsm := opsm) (by
      intro q hq
      rw [hcm, show (0 : U64).getLsbD q = false from BitVec.getLsbD_zero] at hq; cases hq) rfl (by
      intro q hq _
      have h64 : q < 64 := by
        have := hu q hq
        omega
      rw [hops, hcm, BitVec.getLsbD_and, BitVec.getLsbD_or, show (g.operands.t ||| g.operands.c).getLsbD q = true from hq]
      rw [BitVec.getLsbD_not, show (0 : U64).getLsbD q = false from BitVec.getLsbD_zero]
      simp [h64]) hlen
  unfold mergeDenseMeasSecond
  dsimp only
  rw [a, ok_bind, b, ok_bind]
  exact ⟨_, rfl⟩

/-- **C41, measurements.** Merging a measurement with the identity gate or an uncontrolled global phase, in either order, returns the
measurement and the phase.  With every other gate on the qubits of a register, merging throws (a measurement has no matrix), in either order; so does
merging two measurements. -/
theorem C41_measurement {d : GateDesc} {g : UGate} (hd : DescOK d) (h : d.build = .ok g) {target cbit : Nat} {reset : Bool} {m : MeasGate}
    (hm : mkMeas target cbit reset = .ok m) {n : Nat} (hn : n < 64) (hq : ∀ q ∈ qubitsOf d, q < n) (ht : target < n) :
    (∀ φ, PhaseOnly d φ → mergeAny (.det g) (.meas m) = .ok (.meas m, φ) ∧ mergeAny (.meas m) (.det g) = .ok (.meas m, φ)) ∧
    ((∀ φ, ¬ PhaseOnly d φ) → (∃ msg, mergeAny (.det g) (.meas m) = .error (.throw msg)) ∧
      ∃ msg, mergeAny (.meas m) (.det g) = .error (.throw msg)) ∧
    ∀ m', ∃ msg, mergeAny (.meas m) (.meas m') = .error (.throw msg) := by
  obtain ⟨v, -, s⟩ := build_valid hd h
  have hsec := mergeDenseMeasSecond_throws v hm hn (fun q hu => uses_lt s hq hu) ht
  refine ⟨?_, ?_, fun m' => ⟨_, by unfold mergeAny mergeDenseMeasFirst MeasGate.getMatrix; rfl⟩⟩
  · rintro φ (⟨rfl, rfl⟩ | ⟨vs, rfl⟩)
    · cases h
      exact ⟨rfl, rfl⟩
    · obtain ⟨o, ho, h⟩ := bind_ok (show (do let o ← mkOperands [] [] vs; pure (UGate.globalPhase φ o) : Res UGate) = .ok _ from h)
      cases h
      have hc := (noControls_iff ho).2 rfl
      unfold mergeAny
      dsimp only
      rw [if_pos hc, if_pos hc]
      exact ⟨rfl, rfl⟩
  · intro hno
    have hne : g ≠ .ident := by
      rintro rfl
      cases d <;> unfold GateDesc.build at h <;> dsimp only at h <;> first
        | (exact hno 0 (.inl ⟨rfl, rfl⟩))
        | (cases h; done)
        | (obtain ⟨_, _, h⟩ := bind_ok h
           cases h; done)
    have hgp : ∀ φ o, g = .globalPhase φ o → o.c ≠ 0 := by
      rintro φ o rfl h0
      cases d <;> unfold GateDesc.build at h <;> dsimp only at h <;> first
        | (cases h; done)
        | (obtain ⟨o', ho', h⟩ := bind_ok h
           cases h
           have := (noControls_iff ho').1 h0
           subst this
           exact hno _ (.inr ⟨_, rfl⟩))
        | (obtain ⟨_, _, h⟩ := bind_ok h
           cases h; done)
    constructor
    · cases g <;> first
        | (exact absurd rfl hne)
        | (exact ⟨_, by unfold mergeAny; rfl⟩)
        | (rename_i φ o
           unfold mergeAny
           dsimp only
           rw [if_neg (hgp φ o rfl)]
           exact hsec)
        | (unfold mergeAny
           exact hsec)
    · cases g <;> first
        | (exact absurd rfl hne)
        | (exact ⟨_, by unfold mergeAny mergeDenseMeasFirst MeasGate.getMatrix; rfl⟩)
        | (rename_i φ o
           unfold mergeAny
           dsimp only
           rw [if_neg (hgp φ o rfl)]
           unfold mergeDenseMeasFirst MeasGate.getMatrix
           exact ⟨_, rfl⟩)

/-- a Hadamard gate and a measurement of the same qubit; a controlled phase; a global phase -/
example : ∃ g1 g2 g3 m, (GateDesc.one .H 0 [] []).build = .ok g1 ∧ (GateDesc.globalPhase 1 [2] [0]).build = .ok g2 ∧
    (GateDesc.globalPhase 1 [] []).build = .ok g3 ∧ mkMeas 0 1 true = .ok m ∧
    (∃ msg, mergeAny (.det g1) (.meas m) = .error (.throw msg)) ∧ (∃ msg, mergeAny (.det g2) (.meas m) = .error (.throw msg)) ∧
    mergeAny (.det g3) (.meas m) = .ok (.meas m, 1) := by
  obtain ⟨m, hm⟩ := mkMeas_build (target := 0) (cbit := 1) (reset := true) (by norm_num)
  obtain ⟨g1, h1⟩ := build_one .H (q := 0) (cs := []) (vs := []) (by norm_num) (by simp) (by simp) (by simp) (by simp [effectiveValues]) (by simp [effectiveValues])
  have h2 : ∃ g2, (GateDesc.globalPhase 1 [2] [0]).build = .ok g2 := ⟨_, rfl⟩
  have h3 : ∃ g3, (GateDesc.globalPhase 1 [] []).build = .ok g3 := ⟨_, rfl⟩
  obtain ⟨g2, h2⟩ := h2
  obtain ⟨g3, h3⟩ := h3
  refine ⟨g1, g2, g3, m, h1, h2, h3, hm, ?_, ?_, ?_⟩
  · exact ((C41_measurement (n := 3) (d := .one .H 0 [] []) trivial h1 hm (by norm_num) (by simp [qubitsOf, targetsOf, controlsOf, ctrlList, effectiveValues]) (by norm_num)).2.1 (by
      rintro φ (⟨h, -⟩ | ⟨vs, h⟩) <;> cases h)).1
  · exact ((C41_measurement (n := 3) (d := .globalPhase 1 [2] [0]) trivial h2 hm (by norm_num) (by simp [qubitsOf, targetsOf, controlsOf, ctrlList, effectiveValues]) (by norm_num)).2.1 (by
      rintro φ (⟨h, -⟩ | ⟨vs, h⟩) <;> cases h)).1
  · exact ((C41_measurement (n := 3) (d := .globalPhase 1 [] []) trivial h3 hm (by norm_num) (by simp [qubitsOf, targetsOf, controlsOf, ctrlList, effectiveValues]) (by norm_num)).1 1
      (.inr ⟨_, rfl⟩)).1

/-- two gates one after the other, from `c` to `c'`, both returning normally -/
def RunsBoth (L n : Nat) (rnd : Nat → ℝ) (a b : Gate) (c c' : Context) : Prop :=
  ∃ d, a.RunsOn L n rnd c d none ∧ b.RunsOn L n rnd d c' none

/-- **C41, measurements, effect.** Where the measurement is returned with a phase `φ`, it stands for the two gates in the order given: from every
normalised state, with every random source, the two gates and the measurement alone consume the same random number, give the same register (the same
outcome), and states that differ by `exp(iφ)`. -/
theorem C41_measurement_effect {d : GateDesc} {g : UGate} {φ : ℝ} (hp : PhaseOnly d φ) (h : d.build = .ok g) {target cbit : Nat} {reset : Bool}
    {m : MeasGate} (hm : mkMeas target cbit reset = .ok m) {L n : Nat} (hL : LanesOK L) (hn : n ≤ 63) (ht : target < n)
    {rnd : Nat → ℝ} (hu : ∀ i, 0 ≤ rnd i ∧ rnd i < 1) (c : Context) (hnorm : normSq (2 ^ n) c.psi = 1) (hc : cbit < c.reg.length) :
    ∃ c1 c2 c3, RunsBoth L n rnd (.det g) (.meas m) c c1 ∧ RunsBoth L n rnd (.meas m) (.det g) c c2 ∧ (Gate.meas m).RunsOn L n rnd c c3 none ∧
      c1.reg = c3.reg ∧ c2.reg = c3.reg ∧ c1.pos = c3.pos ∧ c2.pos = c3.pos ∧
      (∀ j : U64, j.toNat < 2 ^ n → c1.psi j = cis φ * c3.psi j) ∧ ∀ j : U64, j.toNat < 2 ^ n → c2.psi j = cis φ * c3.psi j := by
  obtain ⟨ψ, reg, pos⟩ := c
  dsimp only at hnorm hc
  have hop : operatorOf d = phaseOp φ := by
    rcases hp with ⟨rfl, rfl⟩ | ⟨vs, rfl⟩
    · funext ψ j
      unfold phaseOp operatorOf
      rw [cis_zero, one_mul]
      simp [targetsOf, matrixOf, controlsOf, applyMat, CtrlOK, putBits, getBits, matOne]
    · funext ψ j
      unfold phaseOp operatorOf
      simp [targetsOf, matrixOf, controlsOf, ctrlList, applyMat, CtrlOK, putBits]
  have hdet : ∀ (ψ : U64 → ℂ) reg pos, (Gate.det g).RunsOn L n rnd ⟨ψ, reg, pos⟩ ⟨onState (2 ^ n) (phaseOp φ) ψ, reg, pos⟩ none := by
    intro ψ reg pos
    have hfit : Fits L 1 n := ⟨hL, by omega, by rw [one_mul]; exact Nat.pow_le_pow_right (by norm_num) (by omega)⟩
    obtain ⟨dev, a, r⟩ := performs_of_build (L := L) (B := 1) (n := n) (by rcases hp with ⟨rfl, -⟩ | ⟨vs, rfl⟩ <;> trivial) h hfit (by
      rcases hp with ⟨rfl, -⟩ | ⟨vs, rfl⟩ <;> simp [qubitsOf, targetsOf, controlsOf, ctrlList])
    have hr := r ψ
    rw [hop] at hr
    change UGate.RunsOn L n g _ _ _
    unfold UGate.RunsOn
    rw [a]
    refine ⟨rfl, rfl, rfl, ?_⟩
    dsimp only
    simpa only [one_mul] using hr
  obtain ⟨h1, h0⟩ := outcome_spec (q := target) hnorm (hu pos).1 (hu pos).2
  have hbp : ∀ b, bitProb n (onState (2 ^ n) (phaseOp φ) ψ) target b = bitProb n ψ target b := fun b => bitProb_phase (by omega) _ _ _ _
  have hout : outcome n target (onState (2 ^ n) (phaseOp φ) ψ) (rnd pos) = outcome n target ψ (rnd pos) := by
    unfold outcome; rw [hbp]
  have hmeas := (C35_measure_any hm hL hn ht (rnd := rnd) (pos := pos) hc h1 h0 _ _).2 ⟨rfl, rfl⟩
  have hmeas' := (C35_measure_any hm hL hn ht (rnd := rnd) (pos := pos) (ψ := onState (2 ^ n) (phaseOp φ) ψ) hc (by rw [hbp]; exact h1)
    (by rw [hbp, hout]; exact h0) _ _).2 ⟨rfl, rfl⟩
  refine ⟨_, _, _, ⟨_, hdet ψ reg pos, hmeas'⟩, ⟨_, hmeas, hdet _ _ _⟩, hmeas, ?_, rfl, rfl, rfl, ?_, ?_⟩
  · dsimp only; rw [hout]
  · intro j hj
    dsimp only
    rw [hout, measure_phase (by omega) _ _ _ _ ht, onState, if_pos hj]
    rfl
  · intro j hj
    dsimp only
    rw [onState, if_pos hj]
    rfl

/-- a global phase of 1 and a measurement with reset on the state `|0⟩` of one qubit -/
example : ∃ g m, (GateDesc.globalPhase 1 [] []).build = .ok g ∧ mkMeas 0 0 true = .ok m ∧ ∃ c1 c3 : Context,
    RunsBoth 0 1 (fun _ => 1 / 2) (.det g) (.meas m) ⟨fun j => if j = 0 then 1 else 0, [false], 0⟩ c1 ∧
    (Gate.meas m).RunsOn 0 1 (fun _ => 1 / 2) ⟨fun j => if j = 0 then 1 else 0, [false], 0⟩ c3 none ∧ c1.reg = c3.reg ∧
    ∀ j : U64, j.toNat < 2 ^ 1 → c1.psi j = cis 1 * c3.psi j := by
  obtain ⟨m, hm⟩ := mkMeas_build (target := 0) (cbit := 0) (reset := true) (by norm_num)
  have h3 : ∃ g3, (GateDesc.globalPhase 1 [] []).build = .ok g3 := ⟨_, rfl⟩
  obtain ⟨g, h⟩ := h3
  obtain ⟨c1, c2, c3, h1, h2, h3, r1, -, -, -, e, -⟩ := C41_measurement_effect (d := .globalPhase 1 [] []) (.inr ⟨_, rfl⟩) h hm (L := 0) (n := 1)
    (.inl rfl) (by norm_num) (by norm_num) (rnd := fun _ => 1 / 2) (fun _ => by constructor <;> norm_num) ⟨fun j => if j = 0 then 1 else 0, [false], 0⟩ (by
      unfold normSq
      have : ∀ j : U64, Complex.normSq (if j = 0 then (1 : ℂ) else 0) = if j = 0 then 1 else 0 := fun j => by split <;> simp
      simp only [this]
      rw [Finset.sum_ite_eq']
      rw [if_pos ((mem_indices (by norm_num)).2 (by simp))]) (by simp)
  exact ⟨g, m, h, hm, c1, c3, h1, h3, r1, e⟩

end Verif.Props
