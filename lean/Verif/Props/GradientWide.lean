import Verif.Proofs.GradientWide
import Verif.Proofs.GateBounds
import Verif.Props.Gradient

/-! # C46: observables on more qubits than the circuit -/

namespace Verif.Props
open Verif Verif.Spec Verif.Model Verif.Proofs
attribute [-simp] BitVec.getLsbD_eq_getElem

/-- the operator flips (has X or Y on) only qubits below `n`; Z may stand on any qubit -/
def FlipsBelow (o : Op) (n : Nat) : Prop := ∀ p ∈ o.terms, ∀ q, n ≤ q → p.x.getLsbD q = false

theorem flipsBelow_lt {o : Op} {n : Nat} (h : FlipsBelow o n) : ∀ p ∈ o.terms, p.x.toNat < 2 ^ n := by
  intro p hp
  apply Nat.lt_pow_two_of_testBit
  intro i hi
  exact h p hp i hi

/-- the loop of `compute_expectation_gradient` sees an observable only through what it does to the state -/
theorem gradient_congr {C : Circuit} {L : Nat} {eps : ℝ} {rnd : Nat → ℝ} {θ : String → Option ℝ} {obs obs' : Op} (hh : obs.hermitian = obs'.hermitian)
    (h : ∀ ψ b, obs.Applies (2 ^ C.requiredQubits) ψ b ↔ obs'.Applies (2 ^ C.requiredQubits) ψ b) (junk : U64 → ℂ) (r : Res (String → Option ℝ)) :
    C.Gradient L eps rnd θ obs junk r ↔ C.Gradient L eps rnd θ obs' junk r := by
  unfold Circuit.Gradient
  simp only [hh, h]

/-- **C46 (observables on further qubits, partial).** The observable may act on any register of `N ≥ n` qubits, where `n` is what the circuit
requires, as long as it has no X or Y outside the circuit's qubits: the gradient returned is that of the expectation value in the state that the
circuit prepares on all `N` qubits.  Missing: as in `C46_gradient_partial`, and X or Y on further qubits (`C46_outside`). -/
theorem C46_larger_register_partial {ls : List Line} {C D : Circuit} (hb : buildCircuit ls = .ok C) (ha : ∀ l ∈ ls, l.instr.OK)
    (hg : ∀ l ∈ ls, l.Gradable) (hD : C.inverse = .ok D) {L : Nat} (hL : LanesOK L) (hn : C.requiredQubits < 64)
    {obs : Op} (hs : Sound obs) (hh : obs.hermitian = true) (hx : FlipsBelow obs C.requiredQubits) {N : Nat} (hnN : C.requiredQubits ≤ N)
    (hN : N ≤ 64) {eps : ℝ} (he : 0 < eps) {θ : String → Option ℝ} (hk : KeysGiven ls θ) :
    ∃ grad, (∀ rnd junk r, C.Gradient L eps rnd θ obs junk r ↔ r = .ok grad) ∧ IsGradient ls (expectationOf N ls obs.terms) θ grad := by
  have hQ : ∀ l ∈ ls, ∀ q ∈ l.instr.qubits, q < C.requiredQubits := by
    obtain ⟨gs, hgs, rfl⟩ := buildCircuit_ok hb
    have hck : Circuit.checkQubits ⟨gs, ls.map (·.cond)⟩ (Circuit.requiredQubits ⟨gs, ls.map (·.cond)⟩) = .ok () := by
      unfold Circuit.checkQubits
      rw [if_neg (lt_irrefl _)]
    exact (checkQubits_iff (cs := ls.map (·.cond)) hgs ha _).1.1 hck
  obtain ⟨gs, hgs, -⟩ := buildCircuit_ok hb
  have hxn := flipsBelow_lt hx
  have hle : 2 ^ C.requiredQubits ≤ 2 ^ N := Nat.pow_le_pow_right (by norm_num) hnN
  set obs' : Op := Op.ofTerms (obs.terms.map (cutPauli C.requiredQubits)) with hobs
  have hterms : obs'.terms = obs.terms.map (cutPauli C.requiredQubits) := rfl
  have hreal := sound_real hs hh
  have hh' : obs'.hermitian = true := by
    rw [hobs]
    simp only [Op.ofTerms, realCoefs, List.all_eq_true, decide_eq_true_eq]
    intro p hp
    obtain ⟨p', hp', rfl⟩ := List.mem_map.1 hp
    exact hreal p' hp'
  have hf' : OpFits obs' C.requiredQubits := by
    intro p hp
    rw [hterms] at hp
    obtain ⟨p', hp', rfl⟩ := List.mem_map.1 hp
    intro q hq
    unfold pauliQubits at hq
    rw [List.mem_filter, Bool.or_eq_true] at hq
    by_contra hge
    rcases hq.2 with h | h
    · rw [show (cutPauli C.requiredQubits p').x = p'.x from rfl, hx p' hp' q (by omega)] at h; cases h
    · rw [show (cutPauli C.requiredQubits p').z = p'.z &&& BitVec.ofNat 64 (2 ^ C.requiredQubits - 1) from rfl, BitVec.getLsbD_and,
        bit_lowMask hn] at h
      simp at h
      omega
  have happ : ∀ ψ b, obs.Applies (2 ^ C.requiredQubits) ψ b ↔ obs'.Applies (2 ^ C.requiredQubits) ψ b := by
    intro ψ b
    have h1 := opApplies_spec obs (n := C.requiredQubits) (by omega) hxn ψ
    have h2 := opApplies_spec obs' (n := C.requiredQubits) (by omega) (opFits_x hf') ψ
    have he : onState (2 ^ C.requiredQubits) (OpAct obs.terms) ψ = onState (2 ^ C.requiredQubits) (OpAct obs'.terms) ψ := by
      funext j
      unfold onState
      split
      · next hj =>
        exact opAct_cut (n := C.requiredQubits) (N := C.requiredQubits) hn (le_refl _) hxn (φ := ψ) (φN := ψ) (fun j hj => (if_pos hj).symm) hj
      · rfl
    rw [he] at h1
    constructor
    · intro h; rw [opApplies_unique h h1]; exact h2
    · intro h; rw [opApplies_unique h h2]; exact h1
  obtain ⟨grad, h1, h2⟩ := C46_gradient_partial hb ha hg hD hL hn (.ofTerms _) hh' hf' he hk
  refine ⟨grad, fun rnd junk r => ?_, ?_⟩
  · rw [gradient_congr (hh.trans hh'.symm) happ]
    exact h1 rnd junk r
  · have hE : expectationOf N ls obs.terms = expectationOf C.requiredQubits ls obs'.terms := by
      funext θ'
      have hpad : Padded C.requiredQubits N (runLines C.requiredQubits θ' ls (basisState 0)) (runLines N θ' ls (basisState 0)) := by
        refine padded_runLines hgs ha (fun l hl => gradable_plain (hg l hl)) hnN hQ θ' ?_
        intro j hj
        split
        · rfl
        · next h =>
          unfold basisState
          rw [if_neg (by
            intro h0
            rw [h0] at h
            exact h (Nat.two_pow_pos _))]
      unfold expectationOf
      dsimp only
      congr 1
      refine inner_padded hnN hN hpad ?_
      intro j hj
      rw [sumOperator_eq, sumOperator_eq]
      exact opAct_cut hn hnN hxn hpad hj
    rw [hE]
    exact h2

/-- the circuit of `gradLines` (2 qubits) and `Z` on qubits 0 and 5: a register of 6 qubits -/
example : ∃ C D, buildCircuit gradLines = .ok C ∧ (∀ l ∈ gradLines, l.instr.OK) ∧ C.inverse = .ok D ∧ C.requiredQubits = 2 ∧
    Sound (Op.ofTerms [⟨3, 0b1, 0b100001⟩]) ∧ (Op.ofTerms [⟨3, 0b1, 0b100001⟩]).hermitian = true ∧
    FlipsBelow (Op.ofTerms [⟨3, 0b1, 0b100001⟩]) 2 ∧ ¬ OpFits (Op.ofTerms [⟨3, 0b1, 0b100001⟩]) 5 := by
  refine ⟨_, _, rfl, ?_, rfl, rfl, .ofTerms _, by simp [Op.ofTerms, realCoefs], ?_, ?_⟩
  · intro l hl
    simp only [gradLines, List.mem_cons, List.not_mem_nil, or_false] at hl
    rcases hl with rfl | rfl | rfl <;> trivial
  · intro p hp q hq
    obtain rfl : p = ⟨3, 0b1, 0b100001⟩ := by simpa [Op.ofTerms] using hp
    exact bit_high (n := 2) (by decide) hq
  · intro h
    have := h ⟨3, 0b1, 0b100001⟩ (by simp [Op.ofTerms]) 5 (by
      unfold pauliQubits
      rw [List.mem_filter]
      exact ⟨by simp, by decide⟩)
    omega

/-! ## X or Y outside the state -/

theorem pauliLaunch_reads {x z : U64} {coef : ℂ} {n : Nat} (hn : 1 ≤ n) (hx : x ≠ 0) :
    ∃ i, ∃ k : ℂ → ℂ → Prog U64 ℂ Unit, (pauliLaunch 0 0 x z coef (2 ^ n)).pool i = .read 0#64 (fun a => .read x (k a)) := by
  unfold pauliLaunch
  rw [if_neg hx]
  have hpos : 0 < 2 ^ n >>> (popcount 0 + 1) := by
    rw [popcount_zero, Nat.shiftRight_eq_div_pow]
    obtain ⟨m, rfl⟩ : ∃ m, n = m + 1 := ⟨n - 1, by omega⟩
    rw [pow_succ]
    simp
  have hb : insertZero (BitVec.ofNat 64 0) (0 ||| (1#64 <<< pivotOf x)) ||| 0 = 0#64 := by
    rw [show BitVec.ofNat 64 0 = (0 : U64) from rfl, insertZero_zero]; rfl
  refine ⟨⟨0, hpos⟩, ?_⟩
  dsimp only [pauliFlip, parallelFor]
  rw [hb, show (0#64 : U64) ^^^ x = x from BitVec.zero_xor]
  exact ⟨_, rfl⟩

/-- **C46 (X or Y outside the circuit's qubits).** If the observable has an X or a Y on a qubit that the circuit does not use, applying it to the
circuit's state reads an amplitude outside the state: an execution that does so exists, and consequently no result is specified.  (Circuits of at
least one qubit that run without fault; the observable is not checked against the number of qubits.) -/
theorem C46_outside (C : Circuit) (hn : 1 ≤ C.requiredQubits) (hn' : C.requiredQubits < 64) {obs : Op} {p : PauliOp} (hp : p ∈ obs.terms) {q : Nat}
    (hq : C.requiredQubits ≤ q) (hx : p.x.getLsbD q = true) :
    (∀ ψ : U64 → ℂ, ∃ c, Relation.ReflTransGen (Step (InBatch obs.terms.length (2 ^ C.requiredQubits)))
        (applyPauliSlots 0 0 obs.terms (2 ^ C.requiredQubits), fun p => ψ p.2) c ∧ OutOfRange (InBatch obs.terms.length (2 ^ C.requiredQubits)) c) ∧
    (∀ (L : Nat) (eps : ℝ) (rnd : Nat → ℝ) (θ : String → Option ℝ) (junk : U64 → ℂ) (grad : String → Option ℝ),
      ¬ C.Gradient L eps rnd θ obs junk (.ok grad)) := by
  have hx0 : p.x ≠ 0 := by
    intro h; rw [h, show (0 : U64).getLsbD q = false from BitVec.getLsbD_zero] at hx; cases hx
  have hbig : ¬ p.x.toNat < 2 ^ C.requiredQubits := by
    intro h; rw [bit_high h hq] at hx; cases hx
  obtain ⟨b, hb, rfl⟩ := List.getElem_of_mem hp
  have key : ∀ ψ : U64 → ℂ, ∃ c, Relation.ReflTransGen (Step (InBatch obs.terms.length (2 ^ C.requiredQubits)))
        (applyPauliSlots 0 0 obs.terms (2 ^ C.requiredQubits), fun p => ψ p.2) c ∧ OutOfRange (InBatch obs.terms.length (2 ^ C.requiredQubits)) c := by
    intro ψ
    obtain ⟨i, k, hk⟩ := pauliLaunch_reads (z := obs.terms[b].z) (coef := obs.terms[b].coef) hn hx0
    have hpool : applyPauliSlots 0 0 obs.terms (2 ^ C.requiredQubits) ⟨⟨b, hb⟩, i⟩ =
        .read (b, 0#64) fun a => (Prog.read obs.terms[b].x (k a)).mapAddr fun a => (b, a) := by
      show ((pauliLaunch 0 0 obs.terms[b].x obs.terms[b].z obs.terms[b].coef (2 ^ C.requiredQubits)).pool i).mapAddr (fun a => (b, a)) = _
      rw [hk]
      rfl
    refine ⟨_, .single (.read _ _ _ _ _ hpool ⟨hb, by show (0#64).toNat < _; simp⟩), ⟨⟨b, hb⟩, i⟩, (b, obs.terms[b].x), fun h => hbig h.2,
      .inl ⟨fun v => (k (ψ 0#64) v).mapAddr fun a => (b, a), ?_⟩⟩
    dsimp only
    rw [Function.update_self]
    rfl
  refine ⟨key, ?_⟩
  intro L eps rnd θ junk grad h
  unfold Circuit.Gradient at h
  split at h
  · cases h
  · dsimp only at h
    rw [shl1_ok hn'] at h
    obtain ⟨ψ0, ψ, f1, -, -, h⟩ := h
    cases f1 with
    | some e => cases h
    | none =>
      obtain ⟨b', ⟨m', hr, -⟩, -⟩ := h
      obtain ⟨c, hc, ho⟩ := key ψ
      exact hr.in_range c hc ho

/-- a circuit of one qubit and `X` on qubit 1 -/
example : ∃ C, buildCircuit [⟨.rot (.axis .X 0 1 [] []) "a", none⟩] = .ok C ∧ C.requiredQubits = 1 ∧
    (⟨1, 0b10, 0⟩ : PauliOp) ∈ (Op.ofTerms [⟨1, 0b10, 0⟩]).terms ∧ (Op.ofTerms [⟨1, 0b10, 0⟩]).hermitian = true ∧
    (0b10 : U64).getLsbD 1 = true :=
  ⟨_, rfl, rfl, by simp [Op.ofTerms], by simp [Op.ofTerms, realCoefs], by decide⟩

end Verif.Props
