import Verif.Proofs.RandomInverse
import Verif.Props.CircuitInverse

/-! # C39 for random choices, C38 for copies, C15 for parametric rotations -/

namespace Verif.Props
open Verif Verif.Spec Verif.Model Verif.Proofs
attribute [-simp] BitVec.getLsbD_eq_getElem

/-- **C39.** Circuits with random choices (with and without parameter): if the inverse is run with the random numbers of the circuit in
reverse order, it restores every state.  So the alternatives of the inverse have the same probabilities in the same order, and each undoes
its counterpart. -/
theorem C39_same_draws {ls : List Line} {C D : Circuit} {L n : Nat} (h : CircuitOf ls C n) (hL : LanesOK L) (hn : n < 64)
    (hr : ∀ l ∈ ls, l.instr.Undoable) {θ : String → Option ℝ} (hk : KeysGiven ls θ) {reg : List Bool}
    (hc : ∀ l ∈ ls, ∀ f, l.cond = some f → ∃ b, f reg = .ok b) (hD : C.inverse = .ok D) (ψ : U64 → ℂ) {rnd : Nat → ℝ}
    (h0 : ∀ i, 0 ≤ rnd i) :
    ∃ ψ' K, (∀ c' f, C.RunsOn L n rnd θ ψ reg c' f ↔ c' = ⟨ψ', reg, K⟩ ∧ f = none) ∧
      ∀ rnd' : Nat → ℝ, (∀ i < K, rnd' i = rnd (K - 1 - i)) →
        ∀ c' f, D.RunsOn L n rnd' θ ψ' reg c' f ↔ c' = ⟨ψ, reg, K⟩ ∧ f = none := by
  have hchk := check_ok h hk
  have hlen := built_lengths h.built
  obtain ⟨gs, hgs, rfl⟩ := buildCircuit_ok h.built
  obtain ⟨gs', hgs', rfl⟩ := inverse_eq hlen hD
  have hlen' : gs'.length = gs.length := (mapM_get _ hgs').1
  obtain ⟨ψ', K, h1, h2⟩ := lines_undo hgs hgs' h.args hr hL hn h.qubits hk hc h0 ψ 0
  rw [Nat.zero_add] at h1
  have hlen2 : (ls.map (·.cond)).length = gs'.length := by rw [hlen']; exact hlen
  have r1 : Circuit.RunsOn L n rnd θ ⟨gs, ls.map (·.cond)⟩ ψ reg ⟨ψ', reg, K⟩ none := by
    unfold Circuit.RunsOn
    rw [hchk]
    exact ⟨0, (circuit_loop hlen).2 h1⟩
  refine ⟨ψ', K, fun c' f => ⟨fun h' => Proofs.Circuit.runsOn_unique h' r1, ?_⟩, fun rnd' hrr c' f => ?_⟩
  · rintro ⟨rfl, rfl⟩; exact r1
  have r2 : Circuit.RunsOn L n rnd' θ ⟨gs'.reverse, (ls.map (·.cond)).reverse⟩ ψ' reg ⟨ψ, reg, K⟩ none := by
    unfold Circuit.RunsOn
    rw [undo_check hgs hgs' h.args hr h.qubits hk]
    refine ⟨0, (circuit_loop (by simpa using hlen2)).2 ?_⟩
    dsimp only
    rw [List.zip_eq_zipWith, ← List.reverse_zipWith hlen2, ← List.zip_eq_zipWith]
    have := h2 rnd' 0 (by simpa using hrr)
    rw [Nat.zero_add] at this
    exact this
  exact ⟨fun h' => Proofs.Circuit.runsOn_unique h' r2, by rintro ⟨rfl, rfl⟩; exact r2⟩

/-- the bit-flip channel has an inverse -/
example : ∃ C, CircuitOf flipLines C 1 ∧ C.inverse = .ok C ∧ ∀ l ∈ flipLines, l.instr.Undoable := by
  obtain ⟨C, h1, h2⟩ := flipLines_of
  refine ⟨C, h1, h2, fun l hl => ?_⟩
  simp only [flipLines, List.mem_singleton] at hl
  subst hl
  intro d hd
  simp only [List.mem_cons, List.not_mem_nil, or_false] at hd
  rcases hd with rfl | rfl <;> trivial

/-- a random choice between a fixed gate and a rotation -/
example : (Instr.pchoice [1 / 2, 1 / 2] [.fixed (.one .H 0 [] []), .rot (.axis .X 1 2 [0] [])] "a").Undoable := by
  intro l hl
  simp only [List.mem_cons, List.not_mem_nil, or_false] at hl
  rcases hl with rfl | rfl <;> trivial

/-- **C38.** A copy of a circuit behaves like the circuit: same updates of single and batched states, same reported depth, qubits and
inverse. -/
theorem C38_copy (C : Circuit) :
    (∀ L n rnd θ ψ reg c' f, C.copy.RunsOn L n rnd θ ψ reg c' f ↔ C.RunsOn L n rnd θ ψ reg c' f) ∧
    (∀ L n rnd θ ψ ψ' f, C.copy.RunsPlain L n rnd θ ψ ψ' f ↔ C.RunsPlain L n rnd θ ψ ψ' f) ∧
    (∀ L B n rnd θ ψ reg c' f, C.copy.RunsBatched L B n rnd θ ψ reg c' f ↔ C.RunsBatched L B n rnd θ ψ reg c' f) ∧
    C.copy.requiredQubits = C.requiredQubits ∧ C.copy.inverse = C.inverse := by
  have e : C.copy = C := by
    obtain ⟨gs, cs⟩ := C
    unfold Circuit.copy
    dsimp only
    congr 1
    conv_rhs => rw [← List.map_id gs]
    apply List.map_congr_left
    rintro (g | ⟨p, k⟩) _ <;> rfl
  rw [e]
  exact ⟨fun _ _ _ _ _ _ _ _ => Iff.rfl, fun _ _ _ _ _ _ _ => Iff.rfl, fun _ _ _ _ _ _ _ _ _ => Iff.rfl, rfl, rfl⟩

/-- **C15.** Parametric rotations: the matrix returned by `get_matrix(param)`, applied to the target qubits under the control condition, is
the operation performed by `update_quantum_state` with this parameter. -/
theorem C15_parametric {r : RotDesc} {p : PRot} (h : r.build = .ok p) {L n : Nat} (hL : LanesOK L) (hn : n < 64)
    (hq : ∀ q ∈ qubitsOf (r.at 0), q < n) (t : ℝ) :
    ∃ M, p.getMatrix t = .ok M ∧ M.rows = 2 ^ (maskToVector p.operands.t).length ∧ M.cols = 2 ^ (maskToVector p.operands.t).length ∧
      ∃ dev, p.update L n t = .ok dev ∧ ∀ ψ m', DRuns (1 * 2 ^ n) dev ψ m' ↔
        m' = onState (2 ^ n) (applyMat (maskToVector p.operands.t) M.entry
          (ctrlList (maskToVector p.operands.c) (maskToVector2 p.operands.c p.operands.v))) ψ := by
  have hfit : Fits L 1 n := ⟨hL, hn, one_fits hn⟩
  obtain ⟨M, hM, h1, h2, dev, hdev, hrun⟩ := C15_matrix (rot_descOK r t) (rot_build h t) hfit (by rw [rot_qubits]; exact hq)
  unfold UGate.targetQubitList at h1 h2 hrun
  unfold UGate.controlQubitList UGate.controlValueList at hrun
  rw [fix_operands] at h1 h2 hrun
  refine ⟨M, ?_, h1, h2, dev, by rw [rot_update (rot_bounds h hn hq)]; exact hdev, fun ψ m' => ?_⟩
  · rw [← hM]; cases p <;> rfl
  · have := hrun ψ
    rw [show onState (1 * 2 ^ n) = onState (2 ^ n) by rw [Nat.one_mul]] at this
    exact ⟨fun h' => h'.unique this, by rintro rfl; exact this⟩

/-- a controlled rotation with coefficient 2 -/
example : ∃ p, (RotDesc.axis .Y 1 2 [0] []).build = .ok p ∧ ∀ q ∈ qubitsOf ((RotDesc.axis .Y 1 2 [0] []).at 0), q < 3 := by
  obtain ⟨o, ho⟩ := operands_exist (ts := [1]) (cs := [0]) (vs := []) (by simp) (by simp) (by simp) (by simp)
    (by simp) (by simp [effectiveValues]) (by simp [effectiveValues])
  refine ⟨.axis .Y o 2, ?_, by simp [RotDesc.at, qubitsOf, targetsOf, controlsOf, ctrlList, effectiveValues]⟩
  show (do let o ← mkOperands [1] [0] []; pure (PRot.axis .Y o 2)) = _
  rw [ho]; rfl

end Verif.Props
