import Verif.Proofs.CircuitInverse
import Verif.Props.Circuit

/-! # C39: inverse of a circuit -/

namespace Verif.Props
open Verif Verif.Spec Verif.Model Verif.Proofs
attribute [-simp] BitVec.getLsbD_eq_getElem

/-- **C39.** If `get_inverse()` succeeds for a circuit of (possibly conditional) gates and parametric rotations, the circuit followed by
its inverse, with the same register and parameters, restores every state; both updates finish.  Missing: Pauli gates whose coefficient does
not square to one and matrices wrongly flagged unitary (`C39_pauli_counterexample`), random choices (`C39_random_counterexample`). -/
theorem C39_inverse_partial {ls : List Line} {C D : Circuit} {L n : Nat} (h : CircuitOf ls C n) (hL : LanesOK L) (hn : n < 64)
    (hr : ∀ l ∈ ls, l.instr.Reversible) {θ : String → Option ℝ} (hk : KeysGiven ls θ) {reg : List Bool}
    (hc : ∀ l ∈ ls, ∀ f, l.cond = some f → ∃ b, f reg = .ok b) (hD : C.inverse = .ok D) (ψ : U64 → ℂ) (rnd rnd' : Nat → ℝ) :
    ∃ ψ', (∀ c' f, C.RunsOn L n rnd θ ψ reg c' f ↔ c' = ⟨ψ', reg, 0⟩ ∧ f = none) ∧
      (∀ c' f, D.RunsOn L n rnd' θ ψ' reg c' f ↔ c' = ⟨ψ, reg, 0⟩ ∧ f = none) := by
  have hchk := check_ok h hk
  have hlen := built_lengths h.built
  obtain ⟨gs, hgs, rfl⟩ := buildCircuit_ok h.built
  obtain ⟨gs', hgs', rfl⟩ := inverse_eq hlen hD
  have hlen' : gs'.length = gs.length := (mapM_get _ hgs').1
  obtain ⟨ψ', h1, h2⟩ := lines_back hgs hgs' h.args hr hL hn h.qubits hk hc rnd rnd' ψ
  have hlen2 : (ls.map (·.cond)).length = gs'.length := by rw [hlen']; exact hlen
  have r1 : Circuit.RunsOn L n rnd θ ⟨gs, ls.map (·.cond)⟩ ψ reg ⟨ψ', reg, 0⟩ none := by
    unfold Circuit.RunsOn
    rw [hchk]
    exact ⟨0, (circuit_loop hlen).2 h1⟩
  have r2 : Circuit.RunsOn L n rnd' θ ⟨gs'.reverse, (ls.map (·.cond)).reverse⟩ ψ' reg ⟨ψ, reg, 0⟩ none := by
    unfold Circuit.RunsOn
    rw [inverse_check hgs hgs' h.args hr h.qubits hk]
    refine ⟨0, (circuit_loop (by simpa using hlen2)).2 ?_⟩
    dsimp only
    rw [List.zip_eq_zipWith, ← List.reverse_zipWith hlen2, ← List.zip_eq_zipWith]
    exact h2
  refine ⟨ψ', fun c' f => ⟨fun h' => Proofs.Circuit.runsOn_unique h' r1, ?_⟩, fun c' f => ⟨fun h' => Proofs.Circuit.runsOn_unique h' r2, ?_⟩⟩
  · rintro ⟨rfl, rfl⟩; exact r1
  · rintro ⟨rfl, rfl⟩; exact r2

/-- **C39.** A circuit with a measurement has no inverse: the call throws. -/
theorem C39_measurement {C : Circuit} (hl : C.conds.length = C.gates.length) {g : MeasGate} (hg : Sum.inl (Gate.meas g) ∈ C.gates) (D : Circuit) :
    C.inverse ≠ .ok D := by
  intro h
  obtain ⟨gs', h1, -⟩ := inverse_eq (gs := C.gates) (cs := C.conds) hl h
  obtain ⟨i, hi, e⟩ := List.getElem_of_mem hg
  obtain ⟨v, -, hv⟩ := (mapM_get _ h1).2 i _ (by rw [List.getElem?_eq_getElem hi, e])
  cases hv

/-- a bit-flip channel on qubit 0 -/
noncomputable def flipLines : List Line := [⟨.choice [1 / 2, 1 / 2] [.one .X 0 [] [], .ident], none⟩]

theorem flipLines_of : ∃ C, CircuitOf flipLines C 1 ∧ C.inverse = .ok C := by
  obtain ⟨g, hg⟩ := build_one .X (q := 0) (cs := []) (vs := []) (by norm_num) (by simp) (by simp) (by simp) rfl (by simp [effectiveValues])
  obtain ⟨p, hp⟩ := (C36_accepts [some (1 / 2), some (1 / 2)] [g, .ident]).1.2
    ⟨[1 / 2, 1 / 2], rfl, by simp, rfl, by simp; norm_num, by norm_num⟩
  have hb : (Instr.choice [1 / 2, 1 / 2] [.one .X 0 [] [], .ident]).build = .ok (.inl p) := by
    show (do
      let gs ← [GateDesc.one .X 0 [] [], .ident].mapM GateDesc.build
      let g ← mkProbabilistic ([1 / 2, 1 / 2].map some) (gs.map .det)
      pure (Sum.inl g) : Res Item) = _
    have hm : [GateDesc.one .X 0 [] [], .ident].mapM GateDesc.build = .ok [g, .ident] := by
      rw [List.mapM_cons, hg]; rfl
    rw [hm, ok_bind]
    show (do let g ← mkProbabilistic [some (1 / 2), some (1 / 2)] ([g, .ident].map .det); pure (Sum.inl g) : Res Item) = _
    rw [hp]; rfl
  obtain ⟨t, ht, hpt⟩ := bind_ok (show (do
      let t ← mkProbTable ([(1 / 2 : ℝ), 1 / 2].map some) ((([g, .ident].map Gate.det)).map Gate.component)
      pure (Gate.prob t)) = .ok p from hp)
  cases hpt
  have ht' : mkProbTable ([(1 / 2 : ℝ), 1 / 2].map some) ([g, .ident].map Component.leaf) = .ok t := ht
  obtain ⟨-, hd, hgt⟩ := mkProbTable_leaf ht'
  have hginv : g.inverse = .ok g := by
    obtain ⟨o, ho, h⟩ := bind_ok (show (do let o ← mkOperands [0] [] []; pure (UGate.one .X o)) = .ok g from hg)
    cases h; rfl
  refine ⟨⟨[.inl (.prob t)], [none]⟩, ⟨?_, ?_, ?_⟩, ?_⟩
  · unfold buildCircuit flipLines
    rw [List.foldlM_cons, addLine, hb]
    rfl
  · intro l hl
    simp only [flipLines, List.mem_singleton] at hl
    subst hl
    intro d hd
    simp only [List.mem_cons, List.not_mem_nil, or_false] at hd
    rcases hd with rfl | rfl <;> trivial
  · intro l hl
    simp only [flipLines, List.mem_singleton] at hl
    subst hl
    simp [Instr.qubits, qubitsOf, targetsOf, controlsOf, ctrlList]
  · have hti : ProbTable.inverse t = .ok t := by
      unfold ProbTable.inverse
      rw [hgt, List.mapM_cons, hginv, ok_bind, List.mapM_cons, show UGate.ident.inverse = .ok .ident from rfl, ok_bind, List.mapM_nil]
      rw [hd]
      exact ht'
    unfold Circuit.inverse
    show (List.range 1).foldlM _ _ = _
    rw [List.range_one, List.foldlM_cons]
    have : Circuit.inverseStep ⟨[.inl (.prob t)], [none]⟩ Circuit.empty 0 = .ok ⟨[.inl (.prob t)], [none]⟩ := by
      show (do
        let g' ← Item.inverse (.inl (.prob t))
        match [(none : Option Condition)][sub64 (sub64 1 1) 0]? with
        | none => .error (.ub "_classical_conditions[] out of range")
        | some c => pure ⟨[] ++ [g'], [] ++ [c]⟩ : Res Circuit) = _
      have hi : Item.inverse (.inl (.prob t)) = .ok (.inl (.prob t)) := by
        show (do let g' ← (do let t' ← ProbTable.inverse t; pure (Gate.prob t')); pure (Sum.inl g') : Res Item) = _
        rw [hti]; rfl
      rw [hi, ok_bind]
      rfl
    rw [this]
    rfl

theorem flip_effect (θ : String → Option ℝ) (ψ : U64 → ℂ) {u : ℝ} (hp : Picks [1 / 2, 1 / 2] u 0) :
    History 1 θ flipLines ⟨ψ, [], []⟩ [[u]] ⟨onState (2 ^ 1) (operatorOf (.one .X 0 [] [])) ψ, [], []⟩ :=
  .cons _ _ _ _ _ _ _ (.choice _ [.one .X 0 [] [], .ident] none ⟨ψ, [], []⟩ u 0 (by simp) rfl (by simp) hp) (.nil _)

theorem noflip_effect (θ : String → Option ℝ) (ψ : U64 → ℂ) {u : ℝ} (hp : Picks [1 / 2, 1 / 2] u 1) :
    History 1 θ flipLines ⟨ψ, [], []⟩ [[u]] ⟨onState (2 ^ 1) (operatorOf .ident) ψ, [], []⟩ :=
  .cons _ _ _ _ _ _ _ (.choice _ [.one .X 0 [] [], .ident] none ⟨ψ, [], []⟩ u 1 (by simp) rfl (by simp) hp) (.nil _)

/-- **C39 (counterexample).** The inverse of a random choice draws again: the bit flip happens in the circuit, but not in its inverse. -/
theorem C39_random_counterexample : ∃ C, CircuitOf flipLines C 1 ∧ C.inverse = .ok C ∧ ∃ (ψ ψ1 ψ2 : U64 → ℂ) (rnd rnd' : Nat → ℝ),
    (∀ i, 0 ≤ rnd i ∧ rnd i < 1 ∧ 0 ≤ rnd' i ∧ rnd' i < 1) ∧ ψ2 ≠ ψ ∧ ∀ L, LanesOK L →
      C.RunsOn L 1 rnd (fun _ => none) ψ [] ⟨ψ1, [], 1⟩ none ∧ C.RunsOn L 1 rnd' (fun _ => none) ψ1 [] ⟨ψ2, [], 1⟩ none := by
  obtain ⟨C, hC, hi⟩ := flipLines_of
  have hkeys : KeysGiven flipLines (fun _ => (none : Option ℝ)) := by
    intro l hl k hk
    simp only [flipLines, List.mem_singleton] at hl
    subst hl
    cases hk
  refine ⟨C, hC, hi, fun j => if j = 0 then 1 else 0, onState (2 ^ 1) (operatorOf (.one .X 0 [] [])) (fun j => if j = 0 then 1 else 0),
    onState (2 ^ 1) (operatorOf .ident) (onState (2 ^ 1) (operatorOf (.one .X 0 [] [])) (fun j => if j = 0 then 1 else 0)),
    fun _ => 0, fun _ => 3 / 4, fun i => by norm_num, ?_, fun L hL => ⟨?_, ?_⟩⟩
  rotate_left
  · exact (C38_in_order hC hL (by norm_num) hkeys (flip_effect _ _ (u := 0) ⟨by simp, by simp, by norm_num⟩)
      (rnd := fun _ => 0) (by intro i hi'; simp at hi'; subst hi'; rfl) _ _).2 ⟨rfl, rfl⟩
  · exact (C38_in_order hC hL (by norm_num) hkeys (noflip_effect _ _ (u := 3 / 4) ⟨by simp, by norm_num, by norm_num⟩)
      (rnd := fun _ => 3 / 4) (by intro i hi'; simp at hi'; subst hi'; rfl) _ _).2 ⟨rfl, rfl⟩
  · intro e
    have e0 := congrFun e 0
    have hid : ∀ φ : U64 → ℂ, operatorOf .ident φ = φ := by
      intro φ; funext j
      simp [operatorOf, targetsOf, controlsOf, matrixOf, applyMat_nil, matOne, getBits, putBits]
    have hx : ∀ φ : U64 → ℂ, operatorOf (.one .X 0 [] []) φ 0 = φ 1 := by
      intro φ
      simp only [operatorOf, targetsOf, controlsOf, matrixOf, ctrlList, effectiveValues, List.zip_nil_left, List.map_nil]
      rw [applyMat_one, if_pos (by simp [CtrlOK])]
      have s1 : setBit (0 : U64) 0 true = 1 := by decide
      have s2 : (0 : U64).getLsbD 0 = false := by decide
      simp only [gate1Mat, pauliX, mat2, s1, s2]
      simp
    have z0 : (0 : U64).toNat < 2 ^ 1 := by decide
    unfold onState at e0
    rw [if_pos z0, hid, if_pos z0, hx] at e0
    simp at e0

/-- the sample: a conditional gate, a controlled rotation and a parametric rotation -/
example : ∀ l ∈ [(⟨.gate (.one .H 0 [] []), none⟩ : Line), ⟨.gate (.one (.RX 0.2) 1 [0] []), some (bitCondition 0 true)⟩,
    ⟨.rot (.axis .Y 1 2 [0] []) "a", none⟩], l.instr.Reversible := by
  intro l hl
  simp only [List.mem_cons, List.not_mem_nil, or_false] at hl
  rcases hl with rfl | rfl | rfl <;> trivial

/-- `i·X₀` -/
noncomputable def phaseLines : List Line := [⟨.gate (.pauli ⟨Complex.I, 1, 0⟩ [] []), none⟩]

/-- **C39 (counterexample).** The inverse of the circuit with the single Pauli gate `i·X₀` is the circuit itself; twice it turns `|0⟩` into
`-|0⟩`. -/
theorem C39_pauli_counterexample : ∃ C, CircuitOf phaseLines C 1 ∧ C.inverse = .ok C ∧ ∃ ψ ψ1 ψ2 : U64 → ℂ, ψ2 ≠ ψ ∧ ∀ L, LanesOK L →
    ∀ rnd, C.RunsPlain L 1 rnd (fun _ => none) ψ ψ1 none ∧ C.RunsPlain L 1 rnd (fun _ => none) ψ1 ψ2 none := by
  have hb : ∃ g, mkPauli ⟨Complex.I, 1, 0⟩ [] [] = .ok g := ⟨_, rfl⟩
  obtain ⟨g, hg⟩ := hb
  have hb : (Instr.gate (.pauli ⟨Complex.I, 1, 0⟩ [] [])).build = .ok (.inl (.det (.pauli g))) := by
    show (do let u ← (do let g ← mkPauli ⟨Complex.I, 1, 0⟩ [] []; pure (UGate.pauli g)); pure (Sum.inl (Gate.det u)) : Res Item) = _
    rw [hg]; rfl
  have hpq : pauliQubits ⟨Complex.I, 1, 0⟩ = [0] := by
    simp only [pauliQubits]; decide
  have hC : CircuitOf phaseLines ⟨[.inl (.det (.pauli g))], [none]⟩ 1 := by
    refine ⟨?_, ?_, ?_⟩
    · unfold buildCircuit phaseLines
      rw [List.foldlM_cons, addLine, hb]
      rfl
    · intro l hl
      simp only [phaseLines, List.mem_singleton] at hl
      subst hl; trivial
    · intro l hl q hq
      simp only [phaseLines, List.mem_singleton] at hl
      subst hl
      simp only [Instr.qubits, qubitsOf, targetsOf, controlsOf, hpq] at hq
      simp [ctrlList] at hq
      omega
  have hop : ∀ ψ : U64 → ℂ, operatorOf (.pauli ⟨Complex.I, 1, 0⟩ [] []) ψ =
      fun j => Complex.I * ψ (setBit j 0 (!j.getLsbD 0)) := by
    intro ψ; funext j
    unfold operatorOf
    simp only [targetsOf, controlsOf, matrixOf, hpq, ctrlList, effectiveValues]
    simp only [List.zip_nil_left, List.map_nil]
    rw [applyMat_one, if_pos (by simp [CtrlOK])]
    have hl : letterAt ⟨Complex.I, 1, 0⟩ 0 = .X := by decide
    simp only [pauliMat, hpq, List.map_cons, List.map_nil, pauliStringMat, hl, pauli1Mat, pauliX]
    cases j.getLsbD 0 <;> simp [mat2]
  have hp : ∀ l ∈ phaseLines, Line.Plain l := by
    intro l hl
    simp only [phaseLines, List.mem_singleton] at hl
    subst hl; exact ⟨rfl, trivial⟩
  have hkeys : KeysGiven phaseLines (fun _ => (none : Option ℝ)) := by
    intro l hl k hk
    simp only [phaseLines, List.mem_singleton] at hl
    subst hl
    cases hk
  let step : (U64 → ℂ) → U64 → ℂ := fun ψ => phaseLines.foldl (fun φ l => onState (2 ^ 1) (Line.operator (fun _ => none) l) φ) ψ
  refine ⟨_, hC, rfl, fun j => if j = 0 then 1 else 0, step (fun j => if j = 0 then 1 else 0), step (step (fun j => if j = 0 then 1 else 0)), ?_,
    fun L hL rnd => ⟨(C38_operators hC hL (by norm_num) hkeys hp _ rnd _ none).2 ⟨rfl, rfl⟩,
      (C38_operators hC hL (by norm_num) hkeys hp _ rnd _ none).2 ⟨rfl, rfl⟩⟩⟩
  intro e
  have h9 := congrFun e 0
  simp only [step, phaseLines, List.foldl_cons, List.foldl_nil, Line.operator, onState, hop] at h9
  have z0 : (0 : U64).toNat < 2 ^ 1 := by decide
  have s0 : setBit (0 : U64) 0 (!(0 : U64).getLsbD 0) = 1 := by decide
  have z1 : (1 : U64).toNat < 2 ^ 1 := by decide
  have s1 : setBit (1 : U64) 0 (!(1 : U64).getLsbD 0) = 0 := by decide
  rw [if_pos z0, s0, if_pos z1, s1] at h9
  simp only [if_true] at h9
  rw [mul_one, Complex.I_mul_I] at h9
  norm_num at h9

end Verif.Props
