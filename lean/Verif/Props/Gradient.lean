import Verif.Proofs.Gradient
import Verif.Props.Optimize

/-! # C46: gradients of expectation values -/

namespace Verif.Props
open Verif Verif.Spec Verif.Model Verif.Proofs
attribute [-simp] BitVec.getLsbD_eq_getElem

/-- the expectation value of the sum of Pauli operators `ts` in the state that the lines prepare from `|0…0⟩` -/
noncomputable def expectationOf (n : Nat) (ls : List Line) (ts : List PauliOp) (θ : String → Option ℝ) : ℝ :=
  let ψ := ls.foldl (fun φ l => onState (2 ^ n) (Line.operator θ l) φ) (basisState 0)
  (inner (2 ^ n) ψ (sumOperator ts ψ)).re

/-- `grad` lists the derivatives of `E` at `θ` for the keys of the lines, and nothing else -/
def IsGradient (ls : List Line) (E : (String → Option ℝ) → ℝ) (θ : String → Option ℝ) (grad : String → Option ℝ) : Prop :=
  ∀ key, ((∃ l ∈ ls, l.instr.key? = some key) → ∀ t, θ key = some t →
      ∃ d, grad key = some d ∧ HasDerivAt (fun t => E (tune θ key t)) d t) ∧
    ((∀ l ∈ ls, l.instr.key? ≠ some key) → grad key = none)

theorem isGradient_unique {ls : List Line} {E : (String → Option ℝ) → ℝ} {θ : String → Option ℝ} (hk : KeysGiven ls θ)
    {g g' : String → Option ℝ} (h : IsGradient ls E θ g) (h' : IsGradient ls E θ g') : g = g' := by
  funext key
  by_cases he : ∃ l ∈ ls, l.instr.key? = some key
  · obtain ⟨l, hl, hkey⟩ := he
    obtain ⟨t, ht⟩ := hk l hl key hkey
    obtain ⟨d, e, hd⟩ := (h key).1 ⟨l, hl, hkey⟩ t ht
    obtain ⟨d', e', hd'⟩ := (h' key).1 ⟨l, hl, hkey⟩ t ht
    rw [e, e', hd.unique hd']
  · have hno : ∀ l ∈ ls, l.instr.key? ≠ some key := fun l hl e => he ⟨l, hl, e⟩
    rw [(h key).2 hno, (h' key).2 hno]

theorem gradable_plain {l : Line} (h : l.Gradable) : Line.Plain l := by
  obtain ⟨h1, h2⟩ := h
  refine ⟨h1, ?_⟩
  obtain ⟨ins, c⟩ := l
  cases ins with
  | gate => trivial
  | rot => trivial
  | choice => exact h2
  | measure => exact h2
  | pchoice => exact h2

/-- the lines act on the first `2 ^ n` amplitudes only -/
theorem runLines_local {ls : List Line} {gs : List Item} (hb : ls.mapM (fun l => l.instr.build) = .ok gs) (hok : ∀ l ∈ ls, l.instr.OK)
    (hp : ∀ l ∈ ls, Line.Plain l) {n : Nat} (hq : ∀ l ∈ ls, ∀ q ∈ l.instr.qubits, q < n) (θ : String → Option ℝ) {φ φ' : U64 → ℂ}
    (h : ∀ j : U64, j.toNat < 2 ^ n → φ j = φ' j) : ∀ j : U64, j.toNat < 2 ^ n → runLines n θ ls φ j = runLines n θ ls φ' j := by
  induction ls generalizing gs φ φ' with
  | nil => exact h
  | cons l ls ih =>
    rw [List.mapM_cons] at hb
    obtain ⟨g, hg, hb⟩ := bind_ok hb
    obtain ⟨gs1, hb1, hb⟩ := bind_ok hb
    refine ih hb1 (fun l hl => hok l (List.mem_cons_of_mem _ hl)) (fun l hl => hp l (List.mem_cons_of_mem _ hl))
      (fun l hl => hq l (List.mem_cons_of_mem _ hl)) ?_
    intro j hj
    have hokl := hok l List.mem_cons_self
    have hpl := (hp l List.mem_cons_self).2
    have hql := hq l List.mem_cons_self
    have key : ∀ (d : GateDesc) (u : UGate), DescOK d → d.build = .ok u → (∀ q ∈ qubitsOf d, q < n) →
        operatorOf d φ j = operatorOf d φ' j := by
      intro d u hd hu hq
      obtain ⟨hv, ho, hs⟩ := build_valid hd hu
      have := opOf_local (B := 1) (build_bounds hs hq).1 φ φ' (by rw [Nat.one_mul]; exact h) j (by rw [Nat.one_mul]; exact hj)
      rw [ho] at this
      exact this
    unfold onState
    dsimp only
    rw [if_pos hj, if_pos hj]
    obtain ⟨ins, c⟩ := l
    cases ins with
    | gate d =>
      obtain ⟨u, hu, -⟩ := bind_ok (show (do let g ← d.build; pure (Sum.inl (Gate.det g))) = .ok g from hg)
      exact key d u hokl hu hql
    | rot r k =>
      obtain ⟨p, hp, -⟩ := bind_ok (show (do let p ← r.build; pure (Sum.inr (PGate.rot p, k))) = .ok g from hg)
      unfold Line.operator
      dsimp only
      cases θ k with
      | none => exact h j hj
      | some t => exact key _ _ (rot_descOK r t) (rot_build hp t) (by rw [rot_qubits]; exact hql)
    | choice => exact hpl.elim
    | measure => exact hpl.elim
    | pchoice => exact hpl.elim

theorem inner_hermitian_congr {n : Nat} (hn : n < 64) {F : (U64 → ℂ) → U64 → ℂ} (hF : IsHermitian n F) {ψ φ : U64 → ℂ}
    (h : ∀ j : U64, j.toNat < 2 ^ n → ψ j = φ j) : inner (2 ^ n) ψ (F ψ) = inner (2 ^ n) φ (F φ) := by
  have hB : 2 ^ n ≤ 2 ^ 64 := pow64 (by omega)
  have e : ∀ a, inner (2 ^ n) ψ a = inner (2 ^ n) φ a := fun a => inner_congr hB h fun _ _ => rfl
  rw [e, hF φ ψ, e, ← hF φ φ]

/-- the call, given what the loop does -/
theorem gradient_iff {ls : List Line} {C : Circuit} (hC : CircuitOf ls C C.requiredQubits) {L : Nat} (hL : LanesOK L)
    (hn : C.requiredQubits < 64) {θ : String → Option ℝ} (hk : KeysGiven ls θ) (hplain : ∀ l ∈ ls, Line.Plain l) {obs : Op}
    (hh : obs.hermitian = true) (hf : OpFits obs C.requiredQubits) {eps : ℝ} {junk ψ0 : U64 → ℂ}
    (hψ0 : ψ0 = fun j => if InState (2 ^ C.requiredQubits) j then (if j = 0 then (1 : ℂ) else 0) else junk j) {s1 : GradState}
    (hloop : ∀ s' f, C.Backprops L C.requiredQubits eps θ (runLines C.requiredQubits θ ls ψ0)
      (onState (2 ^ C.requiredQubits) (sumOperator obs.terms) (runLines C.requiredQubits θ ls ψ0)) s' f ↔ s' = s1 ∧ f = none)
    (rnd : Nat → ℝ) (r : Res (String → Option ℝ)) : C.Gradient L eps rnd θ obs junk r ↔ r = .ok s1.grad := by
  have hB : 2 ^ C.requiredQubits ≤ 2 ^ 64 := pow64 (by omega)
  have hfill := fill_runs hB (fun i => if i = 0 then (1 : ℂ) else 0) junk
  rw [← hψ0] at hfill
  have hrun := fun ψ f => C38_operators hC hL hn hk hplain ψ0 rnd ψ f
  unfold Circuit.Gradient
  rw [hh, if_neg (by simp)]
  dsimp only
  rw [shl1_ok hn]
  dsimp only
  constructor
  · rintro ⟨ψz, ψ, f1, r1, r2, r3⟩
    obtain rfl : ψz = ψ0 := r1.unique hfill
    obtain ⟨rfl, rfl⟩ := (hrun _ _).1 r2
    obtain ⟨b, r4, s', f, r5, r6⟩ := r3
    obtain rfl := (C26_apply obs (by omega) hf _ _).1 r4
    obtain ⟨rfl, rfl⟩ := (hloop _ _).1 r5
    exact r6
  · rintro rfl
    exact ⟨ψ0, runLines C.requiredQubits θ ls ψ0, none, hfill, (hrun _ _).2 ⟨rfl, rfl⟩, _, (C26_apply obs (by omega) hf _ _).2 rfl, _, none,
      (hloop _ _).2 ⟨rfl, rfl⟩, rfl⟩

/-- **C46 (partial).** For circuits of unconditional unitary gates and uncontrolled parametric rotations (real non-zero factors) with an
inverse, and a Hermitian observable on the circuit's qubits, `compute_expectation_gradient` finishes and its result lists, for exactly the
keys of the circuit, the derivative of the expectation value with respect to that parameter — also for keys used by several gates.
Missing: controlled rotations (`C46_controlled_counterexample`), random choices, observables on more qubits than the circuit
(`C46_larger_register_partial`), factors below
the thresholds of the code (refused). -/
theorem C46_gradient_partial {ls : List Line} {C D : Circuit} (hb : buildCircuit ls = .ok C) (ha : ∀ l ∈ ls, l.instr.OK)
    (hg : ∀ l ∈ ls, l.Gradable) (hD : C.inverse = .ok D) {L : Nat} (hL : LanesOK L) (hn : C.requiredQubits < 64)
    {obs : Op} (hs : Sound obs) (hh : obs.hermitian = true) (hf : OpFits obs C.requiredQubits) {eps : ℝ} (he : 0 < eps)
    {θ : String → Option ℝ} (hk : KeysGiven ls θ) :
    ∃ grad, (∀ rnd junk r, C.Gradient L eps rnd θ obs junk r ↔ r = .ok grad) ∧
      IsGradient ls (expectationOf C.requiredQubits ls obs.terms) θ grad := by
  have hQ : ∀ l ∈ ls, ∀ q ∈ l.instr.qubits, q < C.requiredQubits := by
    obtain ⟨gs, hgs, rfl⟩ := buildCircuit_ok hb
    have hck : Circuit.checkQubits ⟨gs, ls.map (·.cond)⟩ (Circuit.requiredQubits ⟨gs, ls.map (·.cond)⟩) = .ok () := by
      unfold Circuit.checkQubits
      rw [if_neg (lt_irrefl _)]
    exact (checkQubits_iff (cs := ls.map (·.cond)) hgs ha _).1.1 hck
  set n := C.requiredQubits with hdef
  have hC : CircuitOf ls C n := ⟨hb, ha, hQ⟩
  have hB : 2 ^ n ≤ 2 ^ 64 := pow64 (by omega)
  have hH : IsHermitian n (sumOperator obs.terms) := real_hermitian (sound_real hs hh) (by omega) hf
  have hplain : ∀ l ∈ ls, Line.Plain l := fun l hl => gradable_plain (hg l hl)
  have hkeys := fun k => C43_keys hb k
  have hlen := built_lengths hb
  obtain ⟨gs, hgs, hCe⟩ := buildCircuit_ok hb
  have hgates : C.gates = gs := by rw [hCe]
  obtain ⟨gs', hgs', -⟩ := inverse_eq (gs := C.gates) (cs := C.conds) hlen (D := D) hD
  rw [hgates] at hgs'
  -- the run from any uninitialised memory
  have main : ∀ junk : U64 → ℂ, ∃ grad, IsGradient ls (expectationOf n ls obs.terms) θ grad ∧
      ∀ rnd r, C.Gradient L eps rnd θ obs junk r ↔ r = .ok grad := by
    intro junk
    set ψ0 : U64 → ℂ := fun j => if InState (2 ^ n) j then (if j = 0 then (1 : ℂ) else 0) else junk j with hψ0
    have hz : ∀ j : U64, j.toNat < 2 ^ n → ψ0 j = basisState 0 j := fun j hj => if_pos hj
    have hE : ∀ θ', (inner (2 ^ n) (runLines n θ' ls ψ0) (sumOperator obs.terms (runLines n θ' ls ψ0))).re =
        expectationOf n ls obs.terms θ' := fun θ' =>
      congrArg Complex.re (inner_hermitian_congr hn hH (runLines_local hgs ha hplain hQ θ' hz))
    obtain ⟨b', gr', h1, h2⟩ := grad_lines hgs hgs' ha hg hL hn hQ he hk ψ0
      (onState (2 ^ n) (sumOperator obs.terms) (runLines n θ ls ψ0)) (fun k => if k ∈ C.keySet then some 0 else none)
    refine ⟨gr', fun key => ⟨fun hkey t ht => ?_, fun hno => ?_⟩, fun rnd r => ?_⟩
    · obtain ⟨d, hd, hv⟩ := (h2 key).1 t ht
      refine ⟨_, hv 0 (if_pos ((hkeys key).2 hkey)), ?_⟩
      have hde := deriv_expectation obs.terms hH hd
      have ht0 : tune θ key t = θ := by
        funext k; unfold tune; split
        · next e => rw [e, ht]
        · rfl
      have e1 : (fun s => (inner (2 ^ n) (runLines n (tune θ key s) ls ψ0) (sumOperator obs.terms (runLines n (tune θ key s) ls ψ0))).re) =
          fun s => expectationOf n ls obs.terms (tune θ key s) := funext fun s => hE _
      rw [e1] at hde
      refine hde.congr_deriv ?_
      rw [ht0, zero_add]
      congr 2
      exact inner_congr hB (fun j hj => (if_pos hj).symm) fun _ _ => rfl
    · rw [(h2 key).2 hno, if_neg]
      intro hmem
      obtain ⟨l, hl, e⟩ := (hkeys key).1 hmem
      exact hno l hl e
    · have hloop : ∀ s' f, C.Backprops L n eps θ (runLines n θ ls ψ0) (onState (2 ^ n) (sumOperator obs.terms) (runLines n θ ls ψ0)) s' f ↔
          s' = ⟨ψ0, b', gr'⟩ ∧ f = none := by
        intro s' f
        unfold Circuit.Backprops
        rw [grad_loop, hgates]
        exact h1 s' f
      exact gradient_iff hC hL hn hk hplain hh hf hψ0 hloop rnd r
  obtain ⟨grad, hgrad, -⟩ := main fun _ => 0
  refine ⟨grad, fun rnd junk r => ?_, hgrad⟩
  obtain ⟨grad', hgrad', hr⟩ := main junk
  obtain rfl := isGradient_unique hk hgrad hgrad'
  exact hr rnd r

/-! ## examples and refusals -/

/-- a Hadamard gate and two rotations that share a key -/
noncomputable def gradLines : List Line := [⟨.gate (.one .H 0 [] []), none⟩, ⟨.rot (.axis .X 0 2 [] []) "a", none⟩,
  ⟨.rot (.axis .Y 1 (-1) [] []) "a", none⟩]

example : ∃ C D, buildCircuit gradLines = .ok C ∧ (∀ l ∈ gradLines, l.instr.OK) ∧ (∀ l ∈ gradLines, l.Gradable) ∧ C.inverse = .ok D ∧
    C.requiredQubits = 2 ∧ Sound (Op.ofTerms [⟨3, 0b1, 0⟩]) ∧ (Op.ofTerms [⟨3, 0b1, 0⟩]).hermitian = true ∧
    OpFits (Op.ofTerms [⟨3, 0b1, 0⟩]) 2 ∧ KeysGiven gradLines (fun k => if k = "a" then some 0.3 else none) := by
  have hdb : dblEpsilon ≤ 1 := by unfold dblEpsilon; norm_num
  have hb : buildCircuit gradLines = .ok ⟨[.inl (.det (.one .H ⟨1, 0, 0⟩)), .inr (.rot (.axis .X ⟨1, 0, 0⟩ 2), "a"),
      .inr (.rot (.axis .Y ⟨2, 0, 0⟩ (-1)), "a")], [none, none, none]⟩ := rfl
  refine ⟨_, _, hb, ?_, ?_, rfl, rfl, .ofTerms _, ?_, ?_, ?_⟩
  · intro l hl
    simp only [gradLines, List.mem_cons, List.not_mem_nil, or_false] at hl
    rcases hl with rfl | rfl | rfl <;> trivial
  · intro l hl
    simp only [gradLines, List.mem_cons, List.not_mem_nil, or_false] at hl
    rcases hl with rfl | rfl | rfl
    · exact ⟨rfl, by simp [UnitaryDesc], by simp [InverseDesc]⟩
    · exact ⟨rfl, rfl, by simp only [rotScale]; norm_num; linarith, by intro p k cs vs h; cases h⟩
    · exact ⟨rfl, rfl, by simp only [rotScale]; norm_num; linarith, by intro p k cs vs h; cases h⟩
  · simp [Op.ofTerms, realCoefs]
  · intro p hp
    obtain rfl : p = ⟨3, 0b1, 0⟩ := by simpa [Op.ofTerms] using hp
    unfold PauliFits
    rw [show pauliQubits ⟨3, 0b1, 0⟩ = [0] from by simp only [pauliQubits]; decide]
    simp
  · intro l hl k hk
    simp only [gradLines, List.mem_cons, List.not_mem_nil, or_false] at hl
    rcases hl with rfl | rfl | rfl
    · cases hk
    · cases hk; exact ⟨_, rfl⟩
    · cases hk; exact ⟨_, rfl⟩

/-- **C46 (refusals).** A non-Hermitian observable is refused whatever the circuit. -/
theorem C46_refuses_non_hermitian (C : Circuit) (L : Nat) (eps : ℝ) (rnd : Nat → ℝ) (θ : String → Option ℝ) {obs : Op}
    (hh : obs.hermitian = false) (junk : U64 → ℂ) (r : Res (String → Option ℝ)) (h : C.Gradient L eps rnd θ obs junk r) :
    ∃ m, r = .error (.throw m) := by
  unfold Circuit.Gradient at h
  rw [if_pos hh] at h
  exact ⟨_, h⟩

example : (Op.ofTerms [⟨Complex.I, 0b1, 0⟩]).hermitian = false := by simp [Op.ofTerms, realCoefs]

/-- one rotation of qubit 0 about X, controlled by qubit 1 -/
noncomputable def controlledLines : List Line := [⟨.rot (.axis .X 0 1 [1] []) "a", none⟩]

/-- **C46 (counterexample).** With a controlled rotation the result is wrong: the control qubit is never set, so the expectation value of the
identity is the constant 1 (derivative 0), yet the gradient returned is -1. -/
theorem C46_controlled_counterexample : ∃ C, buildCircuit controlledLines = .ok C ∧ C.requiredQubits = 2 ∧
    ∀ (L : Nat), LanesOK L → ∀ (eps t : ℝ) (rnd junk) (r : Res (String → Option ℝ)),
      (C.Gradient L eps rnd (fun k => if k = "a" then some t else none) (Op.ofTerms [⟨1, 0, 0⟩]) junk r ↔
        r = .ok fun k => if k = "a" then some (-1) else none) ∧
      HasDerivAt (fun t => expectationOf 2 controlledLines (Op.ofTerms [⟨1, 0, 0⟩]).terms fun k => if k = "a" then some t else none) 0 t := by
  have hb : buildCircuit controlledLines = .ok ⟨[.inr (.rot (.axis .X ⟨1, 2, 2⟩ 1), "a")], [none]⟩ := rfl
  have hreq : Circuit.requiredQubits ⟨[.inr (.rot (.axis .X ⟨1, 2, 2⟩ 1), "a")], [none]⟩ = 2 := rfl
  have hfix : ∀ (t : ℝ) (ψ : U64 → ℂ), (∀ j : U64, j.toNat < 4 → j.getLsbD 1 = true → ψ j = 0) →
      onState (2 ^ 2) (operatorOf ((RotDesc.axis .X 0 1 [1] []).at t)) ψ = ψ := by
    intro t ψ hψ
    funext j
    unfold onState
    split
    · next hj =>
      show applyMat [0] _ [(1, true)] ψ j = ψ j
      rw [applyMat_one]
      split
      · next hc =>
        have h1 : j.getLsbD 1 = true := hc (1, true) (by simp)
        have h2 : ∀ b, ψ (setBit j 0 b) = 0 := fun b => hψ _
          (by have := (putBits_inState (n := 2) (B := 1) (ts := [0]) (by simp) (by simp) j b.toNat).2 (by simpa using hj)
              cases b <;> simpa [putBits] using this) (by rw [getLsbD_setBit _ (by norm_num)]; simpa using h1)
        rw [h2, h2, hψ j hj h1]
        simp
      · rfl
    · rfl
  have hth : ∀ t : ℝ, KeysGiven controlledLines (fun k => if k = "a" then some t else none) := by
    intro t l hl k hk
    simp only [controlledLines, List.mem_singleton] at hl
    subst hl
    cases hk
    exact ⟨t, rfl⟩
  have hrun : ∀ (t : ℝ) (ψ : U64 → ℂ), (∀ j : U64, j.toNat < 4 → j.getLsbD 1 = true → ψ j = 0) →
      runLines 2 (fun k => if k = "a" then some t else none) controlledLines ψ = ψ := fun t ψ hψ => hfix t ψ hψ
  have hC : CircuitOf controlledLines ⟨[.inr (.rot (.axis .X ⟨1, 2, 2⟩ 1), "a")], [none]⟩ 2 := by
    refine ⟨hb, ?_, ?_⟩
    · intro l hl
      simp only [controlledLines, List.mem_singleton] at hl
      subst hl; trivial
    · intro l hl
      simp only [controlledLines, List.mem_singleton] at hl
      subst hl
      simp [Instr.qubits, RotDesc.at, qubitsOf, targetsOf, controlsOf, ctrlList, effectiveValues]
  have hop : ∀ ψ : U64 → ℂ, onState (2 ^ 2) (sumOperator (Op.ofTerms [⟨1, 0, 0⟩]).terms) ψ = ψ := by
    intro ψ
    funext j
    unfold onState
    split
    · simp only [sumOperator, Op.ofTerms, List.map_cons, List.map_nil, List.sum_cons, List.sum_nil, add_zero, pauliOperator_eq]
      unfold PauliAct pauliAct pauliExp
      simp [popcount]
    · rfl
  refine ⟨_, hb, hreq, fun L hL eps t rnd junk r => ⟨?_, ?_⟩⟩
  · set ψ0 : U64 → ℂ := fun j => if InState (2 ^ 2) j then (if j = 0 then (1 : ℂ) else 0) else junk j with hψ0
    have hz : ∀ j : U64, j.toNat < 4 → j.getLsbD 1 = true → ψ0 j = 0 := by
      intro j hj h1
      show (if InState (2 ^ 2) j then (if j = 0 then (1 : ℂ) else 0) else junk j) = 0
      rw [if_pos (show InState (2 ^ 2) j from hj), if_neg (by rintro rfl; simp at h1)]
    have hz0 : ∀ j : U64, j.toNat < 2 ^ 2 → ψ0 j = basisState 0 j := fun j hj => if_pos hj
    have hin : inner (2 ^ 2) ψ0 ψ0 = 1 := by
      rw [inner_congr (by norm_num) hz0 hz0]
      exact inner_basisState _ (by norm_num)
    have hstep := fun s s' f => grad_rot_scale (r := .axis .X 0 1 [1] []) (p := .axis .X ⟨1, 2, 2⟩ 1) rfl (eps := eps) (sc := 1)
      (by unfold PGate.scale checkScale
          dsimp only
          rw [if_neg (by unfold dblEpsilon; norm_num), mul_one]) hL (n := 2) (by norm_num)
      (by simp [RotDesc.at, qubitsOf, targetsOf, controlsOf, ctrlList, effectiveValues])
      (θ := fun k => if k = "a" then some t else none) (key := "a") (t := t) rfl s s' f
    have := gradient_iff hC hL (by rw [hreq]; norm_num) (hth t) (by
      intro l hl
      simp only [controlledLines, List.mem_singleton] at hl
      subst hl
      exact ⟨rfl, trivial⟩) (obs := Op.ofTerms [⟨1, 0, 0⟩]) (by simp [Op.ofTerms, realCoefs]) (by
        intro p hp
        obtain rfl : p = ⟨1, 0, 0⟩ := by simpa [Op.ofTerms] using hp
        unfold PauliFits
        rw [show pauliQubits ⟨1, 0, 0⟩ = [] from by simp only [pauliQubits]; decide]
        simp) (eps := eps) hψ0 (s1 := ⟨onState (2 ^ 2) (opOf ((PRot.axis .X ⟨1, 2, 2⟩ 1).inverse.fix t)) ψ0,
          onState (2 ^ 2) (opOf ((PRot.axis .X ⟨1, 2, 2⟩ 1).inverse.fix t)) ψ0, fun k => if k = "a" then some (-1) else none⟩) (by
        intro s' f
        rw [hreq, hrun t ψ0 hz, hop]
        unfold Circuit.Backprops
        rw [grad_loop]
        show SeqRun _ [_] _ _ _ ↔ _
        rw [seqRun_cons_det (hstep _)]
        dsimp only
        rw [show -Real.pi / 1 = -Real.pi from div_one _, hfix _ ψ0 hz, hin]
        have hg : (gradAdd (fun k => if k ∈ Circuit.keySet ⟨[.inr (.rot (.axis .X ⟨1, 2, 2⟩ 1), "a")], [none]⟩ then some 0 else none) "a"
            (-1 * (1 : ℂ).re) : String → Option ℝ) = fun k => if k = "a" then some (-1) else none := by
          funext k
          unfold gradAdd
          by_cases hk : k = "a" <;> simp [hk, Circuit.keySet]
        rw [hg]
        constructor
        · intro h; cases h; exact ⟨rfl, rfl⟩
        · rintro ⟨rfl, rfl⟩; exact .nil _) rnd r
    exact this
  · have hc : ∀ t : ℝ, expectationOf 2 controlledLines (Op.ofTerms [⟨1, 0, 0⟩]).terms (fun k => if k = "a" then some t else none) =
        (inner (2 ^ 2) (basisState 0) (sumOperator (Op.ofTerms [⟨1, 0, 0⟩]).terms (basisState 0))).re := by
      intro t
      have := hrun t (basisState 0) (by intro j _ h1; unfold basisState; rw [if_neg (by rintro rfl; simp at h1)])
      unfold expectationOf
      unfold runLines at this
      rw [this]
    simp only [hc]
    exact hasDerivAt_const _ _

end Verif.Props
