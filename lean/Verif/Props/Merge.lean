import Verif.Proofs.Merge
import Verif.Props.Gates

/-! # C41: `merge_gate` -/

namespace Verif.Props
open Verif Verif.Spec Verif.Model Verif.Proofs
attribute [-simp] BitVec.getLsbD_eq_getElem

/-- on every state (or batch of states) of `n` qubits, `g1` followed by `g2` ends in the same amplitudes as `g`, each multiplied by
`factor` of its index; all three updates are accepted and run without faults under every schedule -/
def SameEffect (g1 g2 g : UGate) (L B n : Nat) (factor : U64 → ℂ) : Prop :=
  ∃ dev1 dev2 dev, g1.update L B n = .ok dev1 ∧ g2.update L B n = .ok dev2 ∧ g.update L B n = .ok dev ∧
    ∀ ψ, ∃ ψ1 ψ2 ψ', DRuns (B * 2 ^ n) dev1 ψ ψ1 ∧ DRuns (B * 2 ^ n) dev2 ψ1 ψ2 ∧ DRuns (B * 2 ^ n) dev ψ ψ' ∧
      ∀ j : U64, j.toNat < B * 2 ^ n → ψ2 j = factor j * ψ' j

/-- the described gate is not a permutation gate -/
def NoPermutation : GateDesc → Prop
  | .perm _ => False
  | _ => True

/-- the angle with which a diagonal one-qubit gate is an `RZ`: RZ itself, and 0 for U1, Z, S, S†, T, T† -/
def RzAngle : Gate1 → ℝ → Prop
  | .RZ θ, a => a = θ
  | .U1 _, a | .Z, a | .S, a | .Sdag, a | .T, a | .Tdag, a => a = 0
  | _, _ => False

/-- two diagonal one-qubit gates whose `RZ` angles add up to `s` -/
def RzSum (d1 d2 : GateDesc) (s : ℝ) : Prop :=
  ∃ k1 q1 cs1 vs1 k2 q2 cs2 vs2 a b, d1 = .one k1 q1 cs1 vs1 ∧ d2 = .one k2 q2 cs2 vs2 ∧ RzAngle k1 a ∧ RzAngle k2 b ∧ s = a + b

theorem rzAngle_of {k : Gate1} {a : ℝ} (h : rzAngle k = some a) : RzAngle k a := by
  cases k <;> simp [rzAngle] at h <;> simp [RzAngle, h]

theorem build_is_one {d : GateDesc} {k : Gate1} {o : Operands} (h : d.build = .ok (.one k o)) : ∃ q cs vs, d = .one k q cs vs := by
  cases d <;> unfold GateDesc.build at h <;> dsimp only at h <;> first
    | (cases h; done)
    | (obtain ⟨_, _, h⟩ := bind_ok h
       cases h; done)
    | (obtain ⟨_, _, h⟩ := bind_ok h
       cases h
       exact ⟨_, _, _, rfl⟩)

theorem build_notPerm {d : GateDesc} {g : UGate} (hd : NoPermutation d) (h : d.build = .ok g) : NotPerm g := by
  rintro p rfl
  cases d <;> unfold GateDesc.build at h <;> dsimp only at h <;> first
    | (exact hd)
    | (cases h; done)
    | (obtain ⟨_, _, h⟩ := bind_ok h
       cases h; done)

theorem uses_lt {d : GateDesc} {g : UGate} (hs : SameQubits g d) {n : Nat} (hq : ∀ q ∈ qubitsOf d, q < n) {q : Nat} (h : UGate.uses g q) : q < n := by
  rcases uses_iff.1 h with h | ⟨b, h⟩
  · exact (build_bounds hs hq).1 q h
  · exact (build_bounds hs hq).2 _ h

/-- **C41, every pair of gates.** For all descriptions of two gates other than permutation gates, on the qubits of any register, `merge_gate`
succeeds, and its gate with the returned global phase acts as the two gates one after the other - except that, where the controls of
the gates hold, a phase `δ` may be lost.  `δ` is zero unless both are diagonal one-qubit gates whose `RZ` angles have a sum
different from zero below `2e-12` in absolute value, and then it is minus half that sum. -/
theorem C41_merge_partial {d1 d2 : GateDesc} {g1 g2 : UGate} (hd1 : DescOK d1) (hd2 : DescOK d2) (h1 : d1.build = .ok g1) (h2 : d2.build = .ok g2)
    (hp1 : NoPermutation d1) (hp2 : NoPermutation d2) {L B n : Nat} (hf : Fits L B n)
    (hq1 : ∀ q ∈ qubitsOf d1, q < n) (hq2 : ∀ q ∈ qubitsOf d2, q < n) :
    ∃ g φ δ, mergeGate g1 g2 = .ok (g, φ) ∧
      SameEffect g1 g2 g L B n (fun j => cis φ * if CtrlOK (controlsOf d1) j then cis δ else 1) ∧
      (δ = 0 ∨ ∃ s, RzSum d1 d2 s ∧ δ = -s / 2 ∧ |s| < 2e-12) := by
  obtain ⟨v1, e1, s1⟩ := build_valid hd1 h1
  obtain ⟨v2, e2, s2⟩ := build_valid hd2 h2
  have u1 : ∀ q, UGate.uses g1 q → q < n := fun q h => uses_lt s1 hq1 h
  have u2 : ∀ q, UGate.uses g2 q → q < n := fun q h => uses_lt s2 hq2 h
  obtain ⟨g, φ, δ, hm, hM, hδ, ht⟩ := mergeGate_ok v1 v2 (build_notPerm hp1 h1) (build_notPerm hp2 h2)
    ⟨n, hf.qubits, fun q h => h.elim (u1 q) (u2 q)⟩
  have u : ∀ q, UGate.uses g q → q < n := fun q h => (hM.qubits q h).elim (u1 q) (u2 q)
  have runs : ∀ g : UGate, Valid g → (∀ q, UGate.uses g q → q < n) →
      ∃ d, g.update L B n = .ok d ∧ ∀ ψ, DRuns (B * 2 ^ n) d ψ (onState (B * 2 ^ n) (opOf g) ψ) :=
    fun g hv hu => update_valid hv hf.lanes hf.qubits hf.size (fun q h => hu q (uses_iff.2 (.inl h)))
      (fun p h => hu p.1 (uses_iff.2 (.inr ⟨p.2, h⟩)))
  obtain ⟨dev1, a1, r1⟩ := runs g1 v1 u1
  obtain ⟨dev2, a2, r2⟩ := runs g2 v2 u2
  obtain ⟨dev, a, r⟩ := runs g hM.valid u
  refine ⟨g, φ, δ, hm, ⟨dev1, dev2, dev, a1, a2, a, ?_⟩, ?_⟩
  · intro ψ
    refine ⟨_, _, _, r1 ψ, r2 _, r ψ, ?_⟩
    intro j hj
    have hl : onState (B * 2 ^ n) (opOf g2) (onState (B * 2 ^ n) (opOf g1) ψ) j = opOf g2 (opOf g1 ψ) j := by
      rw [onState, if_pos hj]
      refine opOf_local (fun q h => u2 q (uses_iff.2 (.inl h))) _ _ ?_ j hj
      intro i hi
      rw [onState, if_pos hi]
    rw [hl, onState, if_pos hj, hM.op]
    by_cases h0 : δ = 0
    · subst h0
      rw [cis_zero]
      simp
    · obtain ⟨k1, k2, o, x, y, rfl, rfl, -⟩ := ht h0
      obtain ⟨q1, cs1, vs1, rfl⟩ := build_is_one h1
      obtain ⟨o', ho', hb⟩ := bind_ok (show (do let o ← mkOperands [q1] cs1 vs1; pure (UGate.one k1 o) : Res UGate) = .ok _ from h1)
      cases hb
      have hc : CtrlOK (UGate.cs (.one k1 o)) j ↔ CtrlOK (controlsOf (.one k1 q1 cs1 vs1)) j := by
        have a := ctrlOK_controls (valid_operandsOK v1) j
        have b := ctrl_mask_iff ho' j
        exact a.symm.trans b
      dsimp only
      by_cases hC : CtrlOK (UGate.cs (.one k1 o)) j
      · rw [if_pos hC, if_pos (hc.1 hC)]; ring
      · rw [if_neg hC, if_neg fun h => hC (hc.2 h)]; ring
  · by_cases h0 : δ = 0
    · exact .inl h0
    · right
      obtain ⟨k1, k2, o, x, y, rfl, rfl, hx, hy, he⟩ := ht h0
      obtain ⟨q1, cs1, vs1, rfl⟩ := build_is_one h1
      obtain ⟨q2, cs2, vs2, rfl⟩ := build_is_one h2
      refine ⟨x + y, ⟨_, _, _, _, _, _, _, _, x, y, rfl, rfl, rzAngle_of hx, rzAngle_of hy, rfl⟩, he, ?_⟩
      rw [he, abs_lt] at hδ
      rw [abs_lt]
      norm_num at hδ ⊢
      constructor <;> linarith [hδ.1, hδ.2]

/-- **C41, exact.** Unless both are diagonal one-qubit gates whose `RZ` angles have a sum different from zero below `2e-12`, the result with its
global phase is exactly the composition. -/
theorem C41_exact {d1 d2 : GateDesc} {g1 g2 : UGate} (hd1 : DescOK d1) (hd2 : DescOK d2) (h1 : d1.build = .ok g1) (h2 : d2.build = .ok g2)
    (hp1 : NoPermutation d1) (hp2 : NoPermutation d2) (hrz : ∀ s, RzSum d1 d2 s → s = 0 ∨ 2e-12 ≤ |s|) {L B n : Nat} (hf : Fits L B n)
    (hq1 : ∀ q ∈ qubitsOf d1, q < n) (hq2 : ∀ q ∈ qubitsOf d2, q < n) :
    ∃ g φ, mergeGate g1 g2 = .ok (g, φ) ∧ SameEffect g1 g2 g L B n (fun _ => cis φ) := by
  obtain ⟨g, φ, δ, h, hs, hδ⟩ := C41_merge_partial hd1 hd2 h1 h2 hp1 hp2 hf hq1 hq2
  have h0 : δ = 0 := by
    rcases hδ with h0 | ⟨s, hs, he, hlt⟩
    · exact h0
    · rcases hrz s hs with rfl | hge
      · rw [he]; simp
      · exact absurd hlt (not_lt.2 hge)
  subst h0
  refine ⟨g, φ, h, ?_⟩
  have : (fun j => cis φ * if CtrlOK (controlsOf d1) j then cis 0 else 1) = fun _ : U64 => cis φ := by
    funext j
    rw [cis_zero]; simp
  rw [this] at hs
  exact hs

/-- a controlled X on qubit 2 followed by a Hadamard on qubit 0, merged by the general case -/
example : ∃ g1 g2 g φ, (GateDesc.one .X 2 [0] [1]).build = .ok g1 ∧ (GateDesc.one .H 0 [] []).build = .ok g2 ∧
    mergeGate g1 g2 = .ok (g, φ) ∧ SameEffect g1 g2 g 0 1 3 (fun _ => cis φ) := by
  obtain ⟨g1, h1⟩ := build_one .X (q := 2) (cs := [0]) (vs := [1]) (by norm_num) (by simp) (by simp) (by simp) (by simp [effectiveValues]) (by simp [effectiveValues])
  obtain ⟨g2, h2⟩ := build_one .H (q := 0) (cs := []) (vs := []) (by norm_num) (by simp) (by simp) (by simp) (by simp [effectiveValues]) (by simp [effectiveValues])
  obtain ⟨g, φ, h, hs⟩ := C41_exact (d1 := .one .X 2 [0] [1]) (d2 := .one .H 0 [] []) (L := 0) (B := 1) (n := 3) trivial trivial h1 h2 trivial trivial (by
    rintro s ⟨k1, q1, cs1, vs1, k2, q2, cs2, vs2, a, b, e1, e2, h, -⟩
    cases e1
    exact absurd h (by simp [RzAngle])) ⟨Or.inl rfl, by norm_num, by norm_num⟩
    (by simp [qubitsOf, targetsOf, controlsOf, ctrlList, effectiveValues]) (by simp [qubitsOf, targetsOf, controlsOf, ctrlList, effectiveValues])
  exact ⟨g1, g2, g, φ, h1, h2, h, hs⟩

/-- two rotations with the same control, merged by the rule for one axis -/
example (a b : ℝ) : ∃ g1 g2 g φ, (GateDesc.one (.RX a) 2 [0] [0]).build = .ok g1 ∧ (GateDesc.one (.RX b) 2 [0] [0]).build = .ok g2 ∧
    mergeGate g1 g2 = .ok (g, φ) ∧ SameEffect g1 g2 g 0 1 3 (fun _ => cis φ) := by
  obtain ⟨g1, h1⟩ := build_one (.RX a) (q := 2) (cs := [0]) (vs := [0]) (by norm_num) (by simp) (by simp) (by simp) (by simp [effectiveValues]) (by simp [effectiveValues])
  obtain ⟨g2, h2⟩ := build_one (.RX b) (q := 2) (cs := [0]) (vs := [0]) (by norm_num) (by simp) (by simp) (by simp) (by simp [effectiveValues]) (by simp [effectiveValues])
  obtain ⟨g, φ, h, hs⟩ := C41_exact (d1 := .one (.RX a) 2 [0] [0]) (d2 := .one (.RX b) 2 [0] [0]) (L := 0) (B := 1) (n := 3) trivial trivial h1 h2 trivial trivial (by
    rintro s ⟨k1, q1, cs1, vs1, k2, q2, cs2, vs2, x, y, e1, e2, h, -⟩
    cases e1
    exact absurd h (by simp [RzAngle])) ⟨Or.inl rfl, by norm_num, by norm_num⟩
    (by simp [qubitsOf, targetsOf, controlsOf, ctrlList, effectiveValues]) (by simp [qubitsOf, targetsOf, controlsOf, ctrlList, effectiveValues])
  exact ⟨g1, g2, g, φ, h1, h2, h, hs⟩

/-- **C41, permutation gates** are not merged: an exception. -/
theorem C41_permutation {p : PermGate} (g : UGate) : (∃ msg, mergeGate (.perm p) g = .error (.throw msg)) ∧
    ∃ msg, mergeGate g (.perm p) = .error (.throw msg) := by
  constructor
  · exact ⟨_, by unfold mergeGate; rfl⟩
  · cases g <;> exact ⟨_, by unfold mergeGate; rfl⟩

theorem cis_ne_one {x : ℝ} (h0 : 0 < x) (h1 : x < 2) : cis (-x) ≠ 1 := by
  intro h
  have h2 := congrArg Complex.im h
  rw [cis_eq] at h2
  have : Real.sin (-x) = 0 := by simpa using h2
  rw [Real.sin_neg] at this
  by_cases hp : x < Real.pi
  · have := Real.sin_pos_of_pos_of_lt_pi h0 hp
    linarith
  · have hpi : Real.pi ≤ x := not_lt.1 hp
    have h3 := Real.two_le_pi
    linarith

/-- **C41 fails exactly**: `RZ(1e-12)` followed by `U1(0)` on qubit 0 gives `U1(1e-12)` with global phase 0, and the phase `-5e-13` of the first
amplitude is lost. -/
theorem C41_counterexample : ∃ g1 g2 g φ, (GateDesc.one (.RZ 1e-12) 0 [] []).build = .ok g1 ∧ (GateDesc.one (.U1 0) 0 [] []).build = .ok g2 ∧
    mergeGate g1 g2 = .ok (g, φ) ∧ ¬ SameEffect g1 g2 g 0 1 1 (fun _ => cis φ) := by
  have ho : mkOperands [0] [] [] = .ok ⟨1, 0, 0⟩ := by rfl
  have hm : maskToVector 1#64 = [0] := by
    have := target_list ho
    unfold sortQ at this; rw [List.mergeSort_singleton] at this
    exact this
  have h1 : (GateDesc.one (.RZ 1e-12) 0 [] []).build = .ok (.one (.RZ 1e-12) ⟨1, 0, 0⟩) := by
    unfold GateDesc.build; dsimp only; rw [ho]; rfl
  have h2 : (GateDesc.one (.U1 0) 0 [] []).build = .ok (.one (.U1 0) ⟨1, 0, 0⟩) := by
    unfold GateDesc.build; dsimp only; rw [ho]; rfl
  have hO : OperandsOK ⟨1, 0, 0⟩ := operandsOK_of ho
  have hself := rebuild_one (q := 0) hO hm (.U1 (1e-12 + 0)) (.RZ 1e-12)
  have hdrop : dropTiny (-1e-12 / 2 + 0) = 0 := by
    unfold dropTiny
    rw [if_pos]
    rw [abs_lt]; constructor <;> norm_num
  have he : elemAt (maskToVector 1#64) 0 = .ok 0 := by rw [hm]; rfl
  have hmerge : mergeGate (.one (.RZ 1e-12) ⟨1, 0, 0⟩) (.one (.U1 0) ⟨1, 0, 0⟩) = .ok (.one (.U1 (1e-12 + 0)) ⟨1, 0, 0⟩, 0) := by
    unfold mergeGate
    dsimp only
    rw [if_neg (by simp [UGate.operands])]
    have hz : stageAngle angleZ .U1 (.one (.RZ 1e-12) ⟨1, 0, 0⟩) (.one (.U1 0) ⟨1, 0, 0⟩) = .ok (some (.one (.U1 (1e-12 + 0)) ⟨1, 0, 0⟩, 0)) := by
      unfold stageAngle
      simp only [angleZ, octPhase]
      have e1 : ∀ k, elemAt (UGate.one k ⟨1, 0, 0⟩).targetQubitList 0 = .ok 0 := fun k => he
      rw [e1, ok_bind, e1, ok_bind, if_pos rfl, hdrop, if_pos (.inr rfl), hself]
      rfl
    unfold mergeStages runStages stagePhase
    rw [ok_bind]
    dsimp only
    unfold runStages stagePauliPair
    simp only [pauliId, ok_bind]
    unfold runStages stagePauliProduct
    simp only [asPauli, pauliId, ok_bind]
    unfold runStages stageFixed
    simp only [octPhase, ok_bind]
    unfold runStages
    rw [hz]
    rfl
  refine ⟨_, _, _, _, h1, h2, hmerge, ?_⟩
  rintro ⟨dev1, dev2, dev, a1, a2, a, h⟩
  obtain ⟨ψ1, ψ2, ψ', r1, r2, r, hj⟩ := h (fun _ => 1)
  have hf : Fits 0 1 1 := ⟨Or.inl rfl, by norm_num, by norm_num⟩
  have p1 := performs_of_build (n := 1) (d := .one (.RZ 1e-12) 0 [] []) trivial h1 hf (by simp [qubitsOf, targetsOf, controlsOf, ctrlList, effectiveValues])
  have p2 := performs_of_build (n := 1) (d := .one (.U1 0) 0 [] []) trivial h2 hf (by simp [qubitsOf, targetsOf, controlsOf, ctrlList, effectiveValues])
  have h3 : (GateDesc.one (.U1 (1e-12 + 0)) 0 [] []).build = .ok (.one (.U1 (1e-12 + 0)) ⟨1, 0, 0⟩) := by
    unfold GateDesc.build; dsimp only; rw [ho]; rfl
  have p3 := performs_of_build (n := 1) (d := .one (.U1 (1e-12 + 0)) 0 [] []) trivial h3 hf (by simp [qubitsOf, targetsOf, controlsOf, ctrlList, effectiveValues])
  obtain ⟨x1, b1, q1⟩ := p1
  obtain ⟨x2, b2, q2⟩ := p2
  obtain ⟨x3, b3, q3⟩ := p3
  rw [a1] at b1; cases b1
  rw [a2] at b2; cases b2
  rw [a] at b3; cases b3
  rw [DRuns.unique r1 (q1 _)] at r2
  have hj0 := hj 0 (by simp)
  rw [DRuns.unique r2 (q2 _), DRuns.unique r (q3 _)] at hj0
  have ev : ∀ (k : Gate1) (ψ : U64 → ℂ), gate1Mat k 0 1 = 0 → onState (1 * 2 ^ 1) (operatorOf (.one k 0 [] [])) ψ 0 = gate1Mat k 0 0 * ψ 0 := by
    intro k ψ hk
    rw [onState, if_pos (by simp)]
    unfold operatorOf
    simp only [targetsOf, matrixOf, controlsOf, ctrlList, effectiveValues]
    rw [show ([] : List Nat).zip _ = [] from rfl] 
    rw [List.map_nil, applyMat_one]
    have h0 : setBit (0#64) 0 false = 0#64 := setBit_self 0#64 (by norm_num)
    simp [CtrlOK, hk, h0]
  rw [ev _ _ (by simp [gate1Mat, mat2]), ev _ _ (by simp only [gate1Mat, rot, pauliZ, mat2]; simp), ev _ _ (by simp [gate1Mat, mat2]), cis_zero] at hj0
  simp only [gate1Mat, rot, pauliZ, mat2] at hj0
  apply cis_ne_one (x := 1e-12 / 2) (by norm_num) (by norm_num)
  rw [cis_eq, Real.cos_neg, Real.sin_neg]
  have : ((Real.cos (1e-12 / 2) : ℂ) - Complex.I * (Real.sin (1e-12 / 2) : ℂ)) = 1 := by
    simpa [-Complex.ofReal_cos, -Complex.ofReal_sin] using hj0
  rw [← this]
  apply Complex.ext <;> simp [-Complex.ofReal_cos, -Complex.ofReal_sin]

end Verif.Props
