import Verif.Proofs.OptimizeTotal
import Verif.Props.Merge
import Verif.Props.Circuit

/-! # C40: `Circuit::optimize`

The property fails as stated (`C40_counterexample`, `C40_counterexample_no_operand`), because gates that cancel, and gates without any
operand, are not handled by the bookkeeping of waiting gates.  Proved is: if every merge that happened kept the qubits of both
gates, the optimized circuit does the same as the original one, on every state, for every block size, up to a phase of at most `1e-12`
(`C40_merges_partial`); and for circuits whose unconditional gates do not come from the cancelling families, every merge is like that
(`C40_families_partial`). -/

namespace Verif.Props
open Verif Verif.Spec Verif.Model Verif.Proofs
attribute [-simp] BitVec.getLsbD_eq_getElem

/-- an unconditional gate mentions a qubit, unless it is the identity or a global phase -/
def Tangible (ls : List Line) : Prop :=
  ∀ d, (⟨.gate d, none⟩ : Line) ∈ ls → qubitsOf d = [] → d = .ident ∨ ∃ φ cs vs, d = .globalPhase φ cs vs

/-- if something is measured, the unconditional gates are unitary -/
def UnitaryIfMeasured (ls : List Line) : Prop :=
  (∃ l ∈ ls, ∃ q cbit reset, l.instr = .measure q cbit reset) → ∀ d, (⟨.gate d, none⟩ : Line) ∈ ls → UnitaryDesc d

/-- the gate returned by `merge_gate` for the pair acts on all the qubits of the two -/
def MergeKeepsQubits (p : UGate × UGate) : Prop :=
  ∀ g φ, mergeGate p.1 p.2 = .ok (g, φ) → ∀ q, q ∈ p.1.operandQubitList ∨ q ∈ p.2.operandQubitList → q ∈ g.operandQubitList

/-- the `RZ` angles of two diagonal one-qubit gates do not have a sum different from zero below `2e-12` -/
def NoTinySum (p : UGate × UGate) : Prop :=
  ∀ k1 o1 k2 o2 a b, p.1 = .one k1 o1 → p.2 = .one k2 o2 → RzAngle k1 a → RzAngle k2 b → a + b = 0 ∨ 2e-12 ≤ |a + b|

theorem goodMerge_of {p : UGate × UGate} (h1 : MergeKeepsQubits p) (h2 : NoTinySum p) : GoodMerge p := by
  refine ⟨fun g φ h q hq => mem_operandList.1 (h1 g φ h q (hq.imp mem_operandList.2 mem_operandList.2)), ?_⟩
  rintro δ hδ ⟨k1, k2, o, a, b, e1, e2, ha, hb, rfl⟩
  rcases h2 _ _ _ _ _ _ e1 e2 (rzAngle_of ha) (rzAngle_of hb) with h0 | h0
  · rw [h0]; norm_num
  · exfalso
    rw [abs_div, abs_neg] at hδ
    norm_num at hδ h0
    linarith

theorem goodMerge_keeps {p : UGate × UGate} (h : GoodMerge p) : MergeKeepsQubits p :=
  fun g φ hm q hq => mem_operandList.2 (h.1 g φ hm q (hq.imp mem_operandList.1 mem_operandList.1))

/-- the outcome of the original and of the optimized circuit agree up to a phase of at most `1e-12` -/
def SameOutcome (C C' : Circuit) (L n : Nat) (rnd : Nat → ℝ) (θ : String → Option ℝ) (ψ : U64 → ℂ) (reg : List Bool) : Prop :=
  ∃ (ε : ℝ) (ψ1 ψ2 : U64 → ℂ) (reg' : List Bool) (draws : Nat), |ε| ≤ 1e-12 ∧ (∀ j, j.toNat < 2 ^ n → ψ1 j = cis ε * ψ2 j) ∧
    (∀ c f, C.RunsOn L n rnd θ ψ reg c f ↔ c = ⟨ψ1, reg', draws⟩ ∧ f = none) ∧
    (∀ c f, C'.RunsOn L n rnd θ ψ reg c f ↔ c = ⟨ψ2, reg', draws⟩ ∧ f = none)

theorem requiredQubits_spec {ls : List Line} {C : Circuit} {n : Nat} (h : CircuitOf ls C n) :
    C.requiredQubits ≤ n ∧ ∀ l ∈ ls, ∀ q ∈ l.instr.qubits, q < C.requiredQubits := by
  obtain ⟨gs, hgs, rfl⟩ := buildCircuit_ok h.built
  constructor
  · have := (checkQubits_iff (cs := ls.map (·.cond)) hgs h.args n).1.2 h.qubits
    unfold Circuit.checkQubits at this
    split at this
    · cases this
    · omega
  · refine (checkQubits_iff (cs := ls.map (·.cond)) hgs h.args _).1.1 ?_
    unfold Circuit.checkQubits
    rw [if_neg (lt_irrefl _)]

theorem optHyp_of {ls : List Line} {C : Circuit} {n : Nat} (h : CircuitOf ls C n) (hn : n < 64) (ht : Tangible ls) (hu : UnitaryIfMeasured ls) :
    OptHyp n C.requiredQubits ls where
  ok := h.args
  qubits := (requiredQubits_spec h).2
  tangible := ht
  norm := fun hm d g hd hg ψ => by
    have hok := h.args _ hd
    obtain ⟨hv, -, hs⟩ := build_valid hok hg
    have := normSq_valid hv (unitaryHyp_of hok hg (hu hm d hd)) (B := 1) (n := n) (one_fits hn)
      (fun q hq => h.qubits _ hd q ((build_mask hok hg q).1 (uses_iff.2 (.inl hq)))) ψ
    rwa [Nat.one_mul] at this

theorem optimize_same {ls : List Line} {C C' : Circuit} {log : List (UGate × UGate)} {L n mb : Nat} (h : CircuitOf ls C n)
    (hL : LanesOK L) (hn : n < 64) (ht : Tangible ls) (hu : UnitaryIfMeasured ls) (ho : C.optimize mb = .ok (C', log))
    (hgood : ∀ p ∈ log, GoodMerge p)
    {θ : String → Option ℝ} (hk : KeysGiven ls θ) {ψ ψ' : U64 → ℂ} {reg reg' : List Bool} {ms : List Nat} {uss : List (List ℝ)}
    (hh : History n θ ls ⟨ψ, reg, []⟩ uss ⟨ψ', reg', ms⟩) {rnd : Nat → ℝ} (hr : Draws rnd uss.flatten) :
    SameOutcome C C' L n rnd θ ψ reg := by
  obtain ⟨hN, -⟩ := requiredQubits_spec h
  have H := optHyp_of h hn ht hu
  have hrun1 := C38_in_order h hL hn hk hh hr
  have hlen := built_lengths h.built
  obtain ⟨s1, h1, ho⟩ := bind_ok (show (do
    let s ← C.optLoop mb ⟨[], [], 0, [], List.replicate C.requiredQubits none, []⟩
    let s ← s.finish
    pure ((⟨s.gates, s.conds⟩ : Circuit), s.log)) = .ok (C', log) from ho)
  obtain ⟨s2, h2, ho⟩ := bind_ok ho
  cases ho
  rw [optLoop_eq hlen] at h1
  obtain ⟨gs, hgs, hCe⟩ := buildCircuit_ok h.built
  rw [show C.conds = ls.map (·.cond) by rw [hCe], show C.gates = gs by rw [hCe]] at h1
  have hlog : s2.log = s1.log := by
    unfold OptState.finish at h2
    obtain ⟨gs', -, h2⟩ := bind_ok h2
    dsimp only at h2
    split at h2
    · obtain ⟨g, -, h2⟩ := bind_ok h2
      exact (push_log h2).trans rfl
    · cases h2; rfl
  obtain ⟨acts, live, hI⟩ := OptInv.loop H hN hn (optInv_init n C.requiredQubits θ ls) (fun l hl => hl) hgs h1
    (fun p hp => hgood p (by rw [hlog]; exact hp))
  rw [List.nil_append] at hI
  obtain ⟨acts', ε, hε, hlen2, hreal, hle, -⟩ := hI.finish hN h2
  obtain ⟨t, us1, us2, hus, ha, hph⟩ := acts_append.1 (hle _ _ _ (acts_of_history hh))
  rw [acts_one] at hph
  obtain ⟨ψ2, r2, m2⟩ := t
  have hph' : us2 = [] ∧ ψ' = onState (2 ^ n) (phaseOp ε) ψ2 ∧ reg' = r2 := by
    generalize hs : (⟨ψ', reg', ms⟩ : Situation) = s' at hph
    cases hph
    cases hs
    exact ⟨rfl, rfl, rfl⟩
  obtain ⟨rfl, hψ, rfl⟩ := hph'
  rw [List.append_nil] at hus
  subst hus
  obtain ⟨m', -, hrun⟩ := acts_run H hN hn hL hreal ha (rnd := rnd) (pos := 0) (fun i hi => by rw [Nat.zero_add]; exact hr i hi)
    (m := 0) (fun i hi => by rw [zero_bit] at hi; cases hi)
  have hcheck : Circuit.check ⟨s2.gates, s2.conds⟩ n θ = .ok () := by
    have hmem : ∀ it ∈ s2.gates, (∃ l ∈ ls, l.instr.build = .ok it) ∨ ∃ g, it = .inl (.det g) ∧ InReg C.requiredQubits g := by
      intro it hit
      obtain ⟨i, hi, rfl⟩ := List.mem_iff_getElem.1 hit
      have hi' : i < (s2.conds.zip s2.gates).length := by rw [List.length_zip]; omega
      have hl := hreal.length_eq
      have hR := List.forall₂_iff_get.1 hreal |>.2 i (by omega) hi'
      rw [List.get_eq_getElem, List.get_eq_getElem, List.getElem_zip] at hR
      generalize acts'[i]'(by omega) = a at hR
      cases a with
      | line l => exact .inl ⟨l, hR.1, hR.2.2⟩
      | gate g =>
        refine .inr ⟨g, ?_, hR.2.2⟩
        have := hR.1
        rw [Prod.mk.injEq] at this
        exact this.2
      | phase => exact hR.elim
    unfold Circuit.check
    have hq : Circuit.checkQubits ⟨s2.gates, s2.conds⟩ n = .ok () := by
      unfold Circuit.checkQubits Circuit.requiredQubits
      rw [if_neg]
      rw [not_lt, bitWidth_le_iff]
      intro i hi
      rw [foldl_or_bit, zero_bit] at hi
      rcases hi with hi | ⟨it, hit, hi⟩
      · cases hi
      · rcases hmem it hit with ⟨l, hl, hb⟩ | ⟨g, rfl, hreg⟩
        · exact h.qubits l hl i ((item_mask hb (h.args l hl) i).1 hi)
        · exact lt_of_lt_of_le (hreg i hi) hN
    rw [hq, ok_bind, checkKeys_iff.1]
    intro p k hp
    rcases hmem _ hp with ⟨l, hl, hb⟩ | ⟨g, hg, -⟩
    · obtain ⟨t, ht⟩ := hk l hl k (item_key hb)
      rw [ht]; simp
    · cases hg
  have hnew : Circuit.RunsOn L n rnd θ ⟨s2.gates, s2.conds⟩ ψ reg ⟨ψ2, reg', uss.flatten.length⟩ none := by
    unfold Circuit.RunsOn
    rw [hcheck]
    dsimp only
    rw [Nat.zero_add] at hrun
    exact ⟨m', (circuit_loop (C := ⟨s2.gates, s2.conds⟩) hlen2).2 hrun⟩
  refine ⟨ε, ψ', ψ2, reg', uss.flatten.length, hε, fun j hj => ?_, hrun1, fun c f => ⟨fun h' => Proofs.Circuit.runsOn_unique h' hnew, ?_⟩⟩
  · rw [hψ]
    unfold onState
    rw [if_pos hj]
    rfl
  · rintro ⟨rfl, rfl⟩
    exact hnew

/-- **C40, whenever no merge lost a qubit.** Let a circuit be built from any lines (gates, conditional gates, random choices,
measurements, parametric gates) whose unconditional gates mention a qubit, and are unitary if something is measured.  If every pair
`optimize` merged gave a gate on all the qubits of the pair and no tiny phase was dropped, then for every block size, state, register and
draws, the new circuit has the outcome of the old one: same register, same draws, same state up to one phase of at most `1e-12`.
Missing for the full statement: circuits in which gates cancel, and gates without operands, where it is false. -/
theorem C40_merges_partial {ls : List Line} {C C' : Circuit} {log : List (UGate × UGate)} {L n mb : Nat} (h : CircuitOf ls C n)
    (hL : LanesOK L) (hn : n < 64) (ht : Tangible ls) (hu : UnitaryIfMeasured ls) (ho : C.optimize mb = .ok (C', log))
    (hgood : ∀ p ∈ log, MergeKeepsQubits p ∧ NoTinySum p)
    {θ : String → Option ℝ} (hk : KeysGiven ls θ) {ψ ψ' : U64 → ℂ} {reg reg' : List Bool} {ms : List Nat} {uss : List (List ℝ)}
    (hh : History n θ ls ⟨ψ, reg, []⟩ uss ⟨ψ', reg', ms⟩) {rnd : Nat → ℝ} (hr : Draws rnd uss.flatten) :
    SameOutcome C C' L n rnd θ ψ reg :=
  optimize_same h hL hn ht hu ho (fun p hp => goodMerge_of (hgood p hp).1 (hgood p hp).2) hk hh hr

/-- **C40, success.** For every block size `optimize` returns normally if no unconditional gate is a permutation gate. -/
theorem C40_total {ls : List Line} {C : Circuit} {n : Nat} (h : CircuitOf ls C n) (hn : n < 64)
    (hp : ∀ d, (⟨.gate d, none⟩ : Line) ∈ ls → NoPermutation d) (mb : Nat) : ∃ C' log, C.optimize mb = .ok (C', log) := by
  obtain ⟨hN, hq⟩ := requiredQubits_spec h
  have hlen := built_lengths h.built
  obtain ⟨gs, hgs, hCe⟩ := buildCircuit_ok h.built
  obtain ⟨s1, h1, hI⟩ := PoolOK.loop (N := C.requiredQubits) (P := fun _ => True) (Q := fun _ => True) (fun _ _ _ _ _ _ _ _ _ _ => ⟨trivial, trivial⟩)
    (lt_of_le_of_lt hN hn) mb (s := ⟨[], [], 0, [], List.replicate C.requiredQubits none, []⟩)
    ⟨by simp, fun q i hqi => by rw [List.getElem?_replicate] at hqi; split at hqi <;> simp at hqi, by simp, by simp⟩ hgs h.args hq
    (fun d g hd hg _ _ => ⟨build_notPerm (hp d hd) hg, trivial⟩)
  obtain ⟨s2, h2, -⟩ := hI.finish
  refine ⟨⟨s2.gates, s2.conds⟩, s2.log, ?_⟩
  unfold Circuit.optimize
  rw [optLoop_eq hlen, show C.conds = ls.map (·.cond) by rw [hCe], show C.gates = gs by rw [hCe], h1, ok_bind, h2]
  rfl

/-- gates outside the families with cancelling members (Paulis, S, T, square roots, Pauli strings, swaps); no permutations -/
def NeverCancels : GateDesc → Prop
  | .one k _ _ _ => match k with
    | .X | .Y | .Z | .S | .Sdag | .T | .Tdag | .SqrtX | .SqrtXdag | .SqrtY | .SqrtYdag => False
    | _ => True
  | .swap _ _ _ _ | .pauli _ _ _ | .perm _ => False
  | _ => True

/-- `a` is the angle of an unconditional `RZ` gate of the circuit, or 0 -/
def IsRzAngle (ls : List Line) (a : ℝ) : Prop := a = 0 ∨ ∃ q cs vs, (⟨.gate (.one (.RZ a) q cs vs), none⟩ : Line) ∈ ls

/-- **C40, for families of gates.** Any circuit whose unconditional gates are among I, GlobalPhase, H, RX, RY, RZ, U1, U2, U3, P0, P1, ECR, dense
and sparse matrices and Pauli rotations (controlled or not), and mention a qubit if they are not I or GlobalPhase, is optimized, for
every block size, without an exception to a circuit with the same outcome on every state. -/
theorem C40_families_partial {ls : List Line} {C : Circuit} {L n : Nat} (h : CircuitOf ls C n)
    (hL : LanesOK L) (hn : n < 64) (ht : Tangible ls) (hu : UnitaryIfMeasured ls)
    (hf : ∀ d, (⟨.gate d, none⟩ : Line) ∈ ls → NeverCancels d)
    (hrz : ∀ a b, IsRzAngle ls a → IsRzAngle ls b → a + b = 0 ∨ 2e-12 ≤ |a + b|) (mb : Nat) :
    ∃ C' log, C.optimize mb = .ok (C', log) ∧ ∀ {θ : String → Option ℝ}, KeysGiven ls θ → ∀ {ψ ψ' : U64 → ℂ} {reg reg' : List Bool} {ms : List Nat}
      {uss : List (List ℝ)}, History n θ ls ⟨ψ, reg, []⟩ uss ⟨ψ', reg', ms⟩ → ∀ {rnd : Nat → ℝ}, Draws rnd uss.flatten →
      SameOutcome C C' L n rnd θ ψ reg := by
  obtain ⟨hN, hq⟩ := requiredQubits_spec h
  have hlen := built_lengths h.built
  obtain ⟨gs, hgs, hCe⟩ := buildCircuit_ok h.built
  have hA : ∀ a ∈ insert 0 {a | IsRzAngle ls a}, ∀ b ∈ insert 0 {a | IsRzAngle ls a}, a + b = 0 ∨ 2e-12 ≤ |a + b| := by
    intro a ha b hb
    refine hrz a b ?_ ?_
    · rcases ha with rfl | ha
      · exact .inl rfl
      · exact ha
    · rcases hb with rfl | hb
      · exact .inl rfl
      · exact hb
  have htame : ∀ d g, (⟨.gate d, none⟩ : Line) ∈ ls → d.build = .ok g → g ≠ .ident → (∀ φ o, g = .globalPhase φ o → o.c ≠ 0) →
      NotPerm g ∧ Tame {a | IsRzAngle ls a} g := by
    intro d g hd hg hne hph
    have hc := hf d hd
    have hnp : NoPermutation d := by cases d <;> first | trivial | exact hc.elim
    refine ⟨build_notPerm hnp hg, ?_⟩
    cases d with
    | ident => cases hg; exact absurd rfl hne
    | globalPhase φ cs vs => obtain ⟨o, ho, hg⟩ := bind_ok hg; cases hg; exact hph _ _ rfl
    | one k q cs vs =>
      obtain ⟨o, ho, hg⟩ := bind_ok hg
      cases hg
      unfold NeverCancels at hc
      cases k <;> first
        | exact trivial
        | exact hc.elim
        | exact .inr ⟨_, _, _, hd⟩
    | swap => exact hc.elim
    | pauli => exact hc.elim
    | perm => exact hc.elim
    | _ => obtain ⟨o, ho, hg⟩ := bind_ok hg; cases hg; trivial
  obtain ⟨s1, h1, hI⟩ := PoolOK.loop (N := C.requiredQubits) (tame_keeps hA)
    (lt_of_le_of_lt hN hn) mb (s := ⟨[], [], 0, [], List.replicate C.requiredQubits none, []⟩)
    ⟨by simp, fun q i hqi => by rw [List.getElem?_replicate] at hqi; split at hqi <;> simp at hqi, by simp, by simp⟩ hgs h.args hq htame
  obtain ⟨s2, h2, hl2⟩ := hI.finish
  have ho : C.optimize mb = .ok (⟨s2.gates, s2.conds⟩, s2.log) := by
    unfold Circuit.optimize
    rw [optLoop_eq hlen, show C.conds = ls.map (·.cond) by rw [hCe], show C.gates = gs by rw [hCe], h1, ok_bind, h2]
    rfl
  exact ⟨_, _, ho, fun hk _ _ _ _ _ _ hh _ hr => optimize_same h hL hn ht hu ho (by rw [hl2]; exact hI.log) hk hh hr⟩

/-! ## samples and counterexamples -/

theorem mask_one : maskToVector 1#64 = [0] := by
  have := target_list (show mkOperands [0] [] [] = .ok ⟨1, 0, 0⟩ from rfl)
  unfold sortQ at this; rw [List.mergeSort_singleton] at this
  exact this

theorem one0_build (k : Gate1) : (GateDesc.one k 0 [] []).build = .ok (.one k ⟨1, 0, 0⟩) := by
  unfold GateDesc.build; dsimp only; rw [show mkOperands [0] [] [] = .ok ⟨1, 0, 0⟩ from rfl]; rfl

theorem circuit_single {ins : Instr} {it : Item} (hb : ins.build = .ok it) (hok : ins.OK) {n : Nat} (hq : ∀ q ∈ ins.qubits, q < n) :
    CircuitOf [⟨ins, none⟩] ⟨[it], [none]⟩ n := by
  obtain ⟨C, hC⟩ := buildCircuit_of (ls := [⟨ins, none⟩]) (by
    intro l hl
    rw [List.mem_singleton] at hl
    subst hl
    exact ⟨_, hb⟩)
  have hC' := hC
  obtain ⟨gs, hgs, rfl⟩ := buildCircuit_ok hC
  rw [List.mapM_cons, hb, ok_bind] at hgs
  cases hgs
  refine ⟨hC', fun l hl => ?_, fun l hl => ?_⟩ <;> rw [List.mem_singleton] at hl <;> subst hl
  · exact hok
  · exact hq

/-- the circuit of two one-qubit gates on qubit 0 -/
theorem two_gates (k1 k2 : Gate1) : CircuitOf [⟨.gate (.one k1 0 [] []), none⟩, ⟨.gate (.one k2 0 [] []), none⟩]
    ⟨[.inl (.det (.one k1 ⟨1, 0, 0⟩)), .inl (.det (.one k2 ⟨1, 0, 0⟩))], [none, none]⟩ 1 := by
  have hb : ∀ k, (Instr.gate (.one k 0 [] [])).build = .ok (.inl (.det (.one k ⟨1, 0, 0⟩))) := fun k => by
    show (do let g ← (GateDesc.one k 0 [] []).build; pure (Sum.inl (Gate.det g)) : Res Item) = _
    rw [one0_build]; rfl
  obtain ⟨C, hC⟩ := buildCircuit_of (ls := [⟨.gate (.one k1 0 [] []), none⟩, ⟨.gate (.one k2 0 [] []), none⟩]) (by
    intro l hl
    simp only [List.mem_cons, List.not_mem_nil, or_false] at hl
    rcases hl with rfl | rfl <;> exact ⟨_, hb _⟩)
  have hC' := hC
  obtain ⟨gs, hgs, rfl⟩ := buildCircuit_ok hC
  rw [List.mapM_cons, hb, ok_bind, List.mapM_cons, hb, ok_bind] at hgs
  cases hgs
  refine ⟨hC', ?_, ?_⟩
  · intro l hl
    simp only [List.mem_cons, List.not_mem_nil, or_false] at hl
    rcases hl with rfl | rfl <;> trivial
  · intro l hl
    simp only [List.mem_cons, List.not_mem_nil, or_false] at hl
    rcases hl with rfl | rfl <;> simp [Instr.qubits, qubitsOf, targetsOf, controlsOf, ctrlList]

/-- the loop of `optimize` for two Paulis on qubit 0: they are merged whatever the block size is -/
theorem two_paulis {k1 k2 : Gate1} (h1 : isPauli (.one k1 ⟨1, 0, 0⟩) = true) (h2 : isPauli (.one k2 ⟨1, 0, 0⟩) = true) {g : UGate} {φ : ℝ}
    (hm : mergeGate (.one k1 ⟨1, 0, 0⟩) (.one k2 ⟨1, 0, 0⟩) = .ok (g, φ)) (mb : Nat) :
    Circuit.optimize ⟨[.inl (.det (.one k1 ⟨1, 0, 0⟩)), .inl (.det (.one k2 ⟨1, 0, 0⟩))], [none, none]⟩ mb = (do
      let s ← OptState.wait ⟨[], [], 0 + φ, [.one k1 ⟨1, 0, 0⟩], [some 0], [(.one k1 ⟨1, 0, 0⟩, .one k2 ⟨1, 0, 0⟩)]⟩ g
      let s ← s.finish
      pure (⟨s.gates, s.conds⟩, s.log)) := by
  have hop : ∀ k, Item.operandList (.inl (.det (.one k ⟨1, 0, 0⟩))) = [0] := fun k => by
    show maskToVector ((1 : U64) ||| 0) = [0]
    rw [show (1 : U64) ||| 0 = 1#64 from rfl, mask_one]
  have hoq : ∀ k, (UGate.one k ⟨1, 0, 0⟩).operandQubitList = [0] := fun k => by
    show maskToVector ((1 : U64) ||| 0) = [0]
    rw [show (1 : U64) ||| 0 = 1#64 from rfl, mask_one]
  have hreq : Circuit.requiredQubits ⟨[.inl (.det (.one k1 ⟨1, 0, 0⟩)), .inl (.det (.one k2 ⟨1, 0, 0⟩))], [none, none]⟩ = 1 := by
    show bitWidth (((0 : U64) ||| ((1 : U64) ||| 0)) ||| ((1 : U64) ||| 0)) = 1
    rfl
  have s1 : OptState.step mb ⟨[], [], 0, [], [none], []⟩ none (.inl (.det (.one k1 ⟨1, 0, 0⟩))) =
      .ok ⟨[], [], 0, [.one k1 ⟨1, 0, 0⟩], [some 0], []⟩ := by
    unfold OptState.step
    dsimp only
    unfold OptState.mergeable OptState.waitingIndices
    rw [hop]
    rw [show ([0].mapM (elemAt [none]) : Res (List (Option Nat))) = .ok [none] from rfl, ok_bind]
    rw [show (pure (sortUnique ([none].filterMap id)) : Res (List Nat)) = .ok [] by simp [sortUnique, uniqueAdj]; rfl, ok_bind, if_pos rfl]
    unfold OptState.wait
    rw [hoq]
    rfl
  have s2 : OptState.step mb ⟨[], [], 0, [.one k1 ⟨1, 0, 0⟩], [some 0], []⟩ none (.inl (.det (.one k2 ⟨1, 0, 0⟩))) =
      OptState.wait ⟨[], [], 0 + φ, [.one k1 ⟨1, 0, 0⟩], [some 0], [(.one k1 ⟨1, 0, 0⟩, .one k2 ⟨1, 0, 0⟩)]⟩ g := by
    unfold OptState.step
    dsimp only
    unfold OptState.mergeable OptState.waitingIndices
    rw [hop]
    rw [show ([0].mapM (elemAt [some 0]) : Res (List (Option Nat))) = .ok [some 0] from rfl, ok_bind]
    rw [show (pure (sortUnique ([some 0].filterMap id)) : Res (List Nat)) = .ok [0] by simp [sortUnique, uniqueAdj]; rfl, ok_bind, if_neg (by simp)]
    have hs : OptState.shouldMerge ⟨[], [], 0, [.one k1 ⟨1, 0, 0⟩], [some 0], []⟩ mb (.one k2 ⟨1, 0, 0⟩) [0] = .ok true := by
      unfold OptState.shouldMerge OptState.newlyApplied
      rw [hop]
      rw [show ([0].filterMapM (fun q => do
        let w ← elemAt [some 0] q
        pure (if w = none then some q else none)) : Res (List Nat)) = .ok [] from rfl, ok_bind]
      rw [show ([0].mapM (elemAt [UGate.one k1 ⟨1, 0, 0⟩]) : Res (List UGate)) = .ok [UGate.one k1 ⟨1, 0, 0⟩] from rfl, ok_bind]
      dsimp only
      rw [h1, h2]
      simp [UGate.operands]
      rfl
    rw [hs, ok_bind, if_pos rfl]
    unfold OptState.mergeAll
    rw [List.foldlM_cons]
    dsimp only
    rw [show elemAt [UGate.one k1 ⟨1, 0, 0⟩] 0 = .ok (.one k1 ⟨1, 0, 0⟩) from rfl, ok_bind, hm, ok_bind]
    rfl
  unfold Circuit.optimize
  rw [optLoop_eq rfl, hreq]
  rw [show List.replicate 1 (none : Option Nat) = [none] from rfl]
  dsimp only [List.zip_cons_cons, List.zip_nil_left]
  rw [List.foldlM_cons, show stepPair mb ⟨[], [], 0, [], [none], []⟩ (none, .inl (.det (.one k1 ⟨1, 0, 0⟩))) = _ from s1, ok_bind, List.foldlM_cons,
    show stepPair mb ⟨[], [], 0, [.one k1 ⟨1, 0, 0⟩], [some 0], []⟩ (none, .inl (.det (.one k2 ⟨1, 0, 0⟩))) = _ from s2]
  cases OptState.wait ⟨[], [], 0 + φ, [.one k1 ⟨1, 0, 0⟩], [some 0], [(.one k1 ⟨1, 0, 0⟩, .one k2 ⟨1, 0, 0⟩)]⟩ g <;> rfl

theorem merge_XX : mergeGate (.one .X ⟨1, 0, 0⟩) (.one .X ⟨1, 0, 0⟩) = .ok (.ident, 0) := by
  unfold mergeGate
  dsimp only
  rw [if_neg (by simp [UGate.operands])]
  have hp : stagePauliPair (.one .X ⟨1, 0, 0⟩) (.one .X ⟨1, 0, 0⟩) = .ok (some (.ident, 0)) := by
    unfold stagePauliPair
    dsimp only [pauliId]
    rw [show elemAt (UGate.one .X ⟨1, 0, 0⟩).targetQubitList 0 = .ok 0 by show elemAt (maskToVector 1#64) 0 = _; rw [mask_one]; rfl, ok_bind, ok_bind, if_pos rfl, if_pos rfl]
    rfl
  unfold mergeStages runStages stagePhase
  rw [ok_bind]
  dsimp only
  unfold runStages
  rw [hp]
  rfl

theorem finish_one {s : OptState} {i : Nat} {g : UGate} (hw : s.waiting = [some i]) (hp : s.pool[i]? = some g) (hφ : |s.phase| ≤ 1e-12) :
    s.finish = .ok { s with gates := s.gates ++ [.inl (.det g)], conds := s.conds ++ [none] } := by
  unfold OptState.finish
  rw [hw, show sortUnique ([some i].filterMap id) = [i] by simp [sortUnique, uniqueAdj], List.mapM_cons, elemAt_ok.2 hp, ok_bind]
  rw [show (([] : List Nat).mapM (elemAt s.pool) : Res (List UGate)) = .ok [] from rfl]
  show (if |s.phase| > 1e-12 then _ else _) = _
  rw [if_neg (not_lt.2 hφ)]
  rfl

theorem optimize_XX (mb : Nat) : Circuit.optimize ⟨[.inl (.det (.one .X ⟨1, 0, 0⟩)), .inl (.det (.one .X ⟨1, 0, 0⟩))], [none, none]⟩ mb =
    .ok (⟨[.inl (.det (.one .X ⟨1, 0, 0⟩))], [none]⟩, [(.one .X ⟨1, 0, 0⟩, .one .X ⟨1, 0, 0⟩)]) := by
  rw [two_paulis rfl rfl merge_XX]
  unfold OptState.wait
  rw [show UGate.ident.operandQubitList = [] by show maskToVector ((0 : U64) ||| 0) = []; rw [show (0 : U64) ||| 0 = 0 from rfl, maskToVector_zero]]
  dsimp only
  rw [show markAll [some 0] [] (some ([UGate.one .X ⟨1, 0, 0⟩] : List UGate).length) = .ok [some 0] from rfl, ok_bind]
  rw [show (pure (⟨[], [], 0 + 0, [UGate.one .X ⟨1, 0, 0⟩] ++ [.ident], [some 0], [(.one .X ⟨1, 0, 0⟩, .one .X ⟨1, 0, 0⟩)]⟩ : OptState) : Res OptState) =
    .ok _ from rfl, ok_bind, finish_one (i := 0) (g := .one .X ⟨1, 0, 0⟩) rfl rfl (by norm_num)]
  rfl

/-- **C40 is false as stated**: for every block size, the circuit X(0), X(0) - which leaves every state as it is - is optimized to X(0), which
maps the state with amplitude 1 at index 0 to one with amplitude 0 there. -/
theorem C40_counterexample (mb : Nat) (rnd : Nat → ℝ) (θ : String → Option ℝ) :
    ∃ C C' log, CircuitOf [⟨.gate (.one .X 0 [] []), none⟩, ⟨.gate (.one .X 0 [] []), none⟩] C 1 ∧ C.optimize mb = .ok (C', log) ∧
      (∀ c f, C.RunsOn 0 1 rnd θ (fun j => if j = 0 then 1 else 0) [] c f → f = none ∧ c.psi 0 = 1) ∧
      (∀ c f, C'.RunsOn 0 1 rnd θ (fun j => if j = 0 then 1 else 0) [] c f → f = none ∧ c.psi 0 = 0) := by
  have hk : ∀ ls : List Line, (∀ l ∈ ls, l = ⟨.gate (.one .X 0 [] []), none⟩) → KeysGiven ls θ ∧ ∀ l ∈ ls, Line.Plain l := by
    intro ls h
    refine ⟨fun l hl k hk => ?_, fun l hl => ?_⟩
    · rw [h l hl] at hk; cases hk
    · rw [h l hl]; exact ⟨rfl, trivial⟩
  have hX0 : ∀ ψ : U64 → ℂ, onState (2 ^ 1) (Line.operator θ ⟨.gate (.one .X 0 [] []), none⟩) ψ 0 = ψ 1 := by
    intro ψ
    show (if (0 : U64).toNat < 2 ^ 1 then applyMat [0] (gate1Mat .X) [] ψ 0 else ψ 0) = _
    rw [if_pos (by decide), applyMat_one, if_pos (by simp [CtrlOK])]
    rw [show setBit 0 0 true = (1 : U64) by decide, show (0 : U64).getLsbD 0 = false by decide]
    simp [gate1Mat, pauliX, mat2]
  have hX1 : ∀ ψ : U64 → ℂ, onState (2 ^ 1) (Line.operator θ ⟨.gate (.one .X 0 [] []), none⟩) ψ 1 = ψ 0 := by
    intro ψ
    show (if (1 : U64).toNat < 2 ^ 1 then applyMat [0] (gate1Mat .X) [] ψ 1 else ψ 1) = _
    rw [if_pos (by decide), applyMat_one, if_pos (by simp [CtrlOK])]
    rw [show setBit 1 0 false = (0 : U64) by decide, show (1 : U64).getLsbD 0 = true by decide]
    simp [gate1Mat, pauliX, mat2]
  have hone : CircuitOf [⟨.gate (.one .X 0 [] []), none⟩] ⟨[.inl (.det (.one .X ⟨1, 0, 0⟩))], [none]⟩ 1 :=
    circuit_single (ins := .gate (.one .X 0 [] [])) (by
      show (do let g ← (GateDesc.one .X 0 [] []).build; pure (Sum.inl (Gate.det g)) : Res Item) = _
      rw [one0_build]; rfl) trivial (by simp [Instr.qubits, qubitsOf, targetsOf, controlsOf, ctrlList])
  refine ⟨_, _, _, two_gates .X .X, optimize_XX mb, fun c f h => ?_, fun c f h => ?_⟩
  · obtain ⟨k, p⟩ := hk [⟨.gate (.one .X 0 [] []), none⟩, ⟨.gate (.one .X 0 [] []), none⟩] (by simp)
    obtain ⟨rfl, rfl⟩ := (C38_in_order (two_gates .X .X) (Or.inl rfl) (by norm_num) k (plain_history (n := 1) p k (fun j => if j = 0 then 1 else 0) [])
      (rnd := rnd) (by intro i hi; simp at hi) c f).1 h
    refine ⟨rfl, ?_⟩
    dsimp only [List.foldl_cons, List.foldl_nil]
    rw [hX0, hX1]
    rfl
  · obtain ⟨k, p⟩ := hk [⟨.gate (.one .X 0 [] []), none⟩] (by simp)
    obtain ⟨rfl, rfl⟩ := (C38_in_order hone (Or.inl rfl) (by norm_num) k (plain_history (n := 1) p k (fun j => if j = 0 then 1 else 0) [])
      (rnd := rnd) (by intro i hi; simp at hi) c f).1 h
    refine ⟨rfl, ?_⟩
    dsimp only [List.foldl_cons, List.foldl_nil]
    rw [hX0]
    rfl

/-! ### gates without operands -/

/-- **C40 is false for gates without operands**: the Pauli gate of the empty string with coefficient `-1` changes the sign of every
amplitude; `optimize` drops it. -/
theorem C40_counterexample_no_operand (mb : Nat) (rnd : Nat → ℝ) (θ : String → Option ℝ) (ψ : U64 → ℂ) :
    ∃ C C' log, CircuitOf [⟨.gate (.pauli ⟨-1, 0, 0⟩ [] []), none⟩] C 1 ∧ C.optimize mb = .ok (C', log) ∧
      (∀ c f, C.RunsOn 0 1 rnd θ ψ [] c f → f = none ∧ c.psi 0 = - ψ 0) ∧
      (∀ c f, C'.RunsOn 0 1 rnd θ ψ [] c f → f = none ∧ c.psi 0 = ψ 0) := by
  have hb : (Instr.gate (.pauli ⟨-1, 0, 0⟩ [] [])).build = .ok (.inl (.det (.pauli ⟨⟨-1, 0, 0⟩, ⟨0, 0, 0⟩⟩))) := by
    show (do let g ← (GateDesc.pauli ⟨-1, 0, 0⟩ [] []).build; pure (Sum.inl (Gate.det g)) : Res Item) = _
    rfl
  have hpq : pauliQubits ⟨-1, 0, 0⟩ = [] := by simp [pauliQubits]
  have hC := circuit_single hb (n := 1) trivial (by
    intro q hq
    have hq : q ∈ pauliQubits ⟨-1, 0, 0⟩ ++ [] := hq
    rw [hpq] at hq; simp at hq)
  have hE : CircuitOf [] ⟨[], []⟩ 1 := ⟨rfl, by simp, by simp⟩
  have hm0 : maskToVector ((0 : U64) ||| 0) = [] := by rw [show (0 : U64) ||| 0 = 0 from rfl, maskToVector_zero]
  have ho : Circuit.optimize ⟨[.inl (.det (.pauli ⟨⟨-1, 0, 0⟩, ⟨0, 0, 0⟩⟩))], [none]⟩ mb = .ok (⟨[], []⟩, []) := by
    have hs : OptState.step mb ⟨[], [], 0, [], [], []⟩ none (.inl (.det (.pauli ⟨⟨-1, 0, 0⟩, ⟨0, 0, 0⟩⟩))) =
        .ok ⟨[], [], 0, [.pauli ⟨⟨-1, 0, 0⟩, ⟨0, 0, 0⟩⟩], [], []⟩ := by
      unfold OptState.step
      dsimp only
      unfold OptState.mergeable OptState.waitingIndices
      rw [show Item.operandList (.inl (.det (.pauli ⟨⟨-1, 0, 0⟩, ⟨0, 0, 0⟩⟩))) = [] from hm0]
      rw [show (([] : List Nat).mapM (elemAt ([] : List (Option Nat))) : Res (List (Option Nat))) = .ok [] from rfl, ok_bind]
      rw [show (pure (sortUnique (([] : List (Option Nat)).filterMap id)) : Res (List Nat)) = .ok [] by simp [sortUnique, uniqueAdj]; rfl, ok_bind, if_pos rfl]
      unfold OptState.wait
      rw [show UGate.operandQubitList (.pauli ⟨⟨-1, 0, 0⟩, ⟨0, 0, 0⟩⟩) = [] from hm0]
      rfl
    unfold Circuit.optimize
    rw [optLoop_eq rfl]
    rw [show Circuit.requiredQubits ⟨[.inl (.det (.pauli ⟨⟨-1, 0, 0⟩, ⟨0, 0, 0⟩⟩))], [none]⟩ = 0 from rfl]
    dsimp only [List.zip_cons_cons, List.zip_nil_left, List.replicate_zero]
    rw [List.foldlM_cons, show stepPair mb ⟨[], [], 0, [], [], []⟩ (none, .inl (.det (.pauli ⟨⟨-1, 0, 0⟩, ⟨0, 0, 0⟩⟩))) = _ from hs, ok_bind]
    rw [show (List.foldlM (stepPair mb) ⟨[], [], 0, [.pauli ⟨⟨-1, 0, 0⟩, ⟨0, 0, 0⟩⟩], [], []⟩ [] : Res OptState) = .ok _ from rfl, ok_bind]
    unfold OptState.finish
    rw [show sortUnique (([] : List (Option Nat)).filterMap id) = [] by simp [sortUnique, uniqueAdj]]
    rw [show (([] : List Nat).mapM (elemAt [UGate.pauli ⟨⟨-1, 0, 0⟩, ⟨0, 0, 0⟩⟩]) : Res (List UGate)) = .ok [] from rfl, ok_bind]
    dsimp only
    rw [if_neg (by norm_num)]
    rfl
  refine ⟨_, _, _, hC, ho, fun c f h => ?_, fun c f h => ?_⟩
  · have hk : KeysGiven [⟨.gate (.pauli ⟨-1, 0, 0⟩ [] []), none⟩] θ := by
      intro l hl k hk
      rw [List.mem_singleton] at hl
      subst hl
      cases hk
    obtain ⟨rfl, rfl⟩ := (C38_in_order hC (Or.inl rfl) (by norm_num) hk
      (plain_history (n := 1) (by intro l hl; rw [List.mem_singleton] at hl; subst hl; exact ⟨rfl, trivial⟩) hk ψ [])
      (rnd := rnd) (by intro i hi; simp at hi) c f).1 h
    refine ⟨rfl, ?_⟩
    show (if (0 : U64).toNat < 2 ^ 1 then applyMat (pauliQubits ⟨-1, 0, 0⟩) (fun r s => -1 * pauliMat ⟨-1, 0, 0⟩ r s) [] ψ 0 else ψ 0) = _
    rw [if_pos (by decide), hpq, Spec.applyMat_nil, if_pos (by simp [CtrlOK])]
    unfold pauliMat
    rw [hpq]
    simp [pauliStringMat]
  · obtain ⟨rfl, rfl⟩ := (C38_in_order hE (Or.inl rfl) (by norm_num) (fun l hl => by simp at hl) (History.nil _)
      (rnd := rnd) (by intro i hi; simp at hi) c f).1 h
    exact ⟨rfl, rfl⟩

/-! ### the hypotheses can be met -/

/-- X(0), Y(0) is merged to Z(0) with a global phase, for every block size -/
theorem merge_XY : mergeGate (.one .X ⟨1, 0, 0⟩) (.one .Y ⟨1, 0, 0⟩) = .ok (.one .Z ⟨1, 0, 0⟩, -(Real.pi / 2)) := by
  unfold mergeGate
  dsimp only
  rw [if_neg (by simp [UGate.operands])]
  have hp : stagePauliPair (.one .X ⟨1, 0, 0⟩) (.one .Y ⟨1, 0, 0⟩) = .ok (some (.one .Z ⟨1, 0, 0⟩, -(Real.pi / 2))) := by
    unfold stagePauliPair
    dsimp only [pauliId]
    have e : ∀ k, elemAt (UGate.one k ⟨1, 0, 0⟩).targetQubitList 0 = .ok 0 := fun k => by
      show elemAt (maskToVector 1#64) 0 = _; rw [mask_one]; rfl
    rw [e, ok_bind, e, ok_bind, if_pos rfl, if_neg (by decide)]
    rw [show pauliPair 1 2 = some (.Z, -(Real.pi / 2)) from rfl]
    dsimp only
    rw [if_pos (show (UGate.one .X ⟨1, 0, 0⟩).operands.c = 0 from rfl), rebuild_one (operandsOK_of (show mkOperands [0] [] [] = .ok ⟨1, 0, 0⟩ from rfl)) mask_one]
    rfl
  unfold mergeStages runStages stagePhase
  rw [ok_bind]
  dsimp only
  unfold runStages
  rw [hp]
  rfl

/-- the hypotheses of `C40_merges_partial` hold for X(0), Y(0): a merge takes place, on any state -/
example (mb : Nat) (ψ : U64 → ℂ) (rnd : Nat → ℝ) : ∃ C C' log uss ψ', CircuitOf [⟨.gate (.one .X 0 [] []), none⟩, ⟨.gate (.one .Y 0 [] []), none⟩] C 1 ∧
    C.optimize mb = .ok (C', log) ∧ log ≠ [] ∧ (∀ p ∈ log, MergeKeepsQubits p ∧ NoTinySum p) ∧
    Tangible [⟨.gate (.one .X 0 [] []), none⟩, ⟨.gate (.one .Y 0 [] []), none⟩] ∧
    UnitaryIfMeasured [⟨.gate (.one .X 0 [] []), none⟩, ⟨.gate (.one .Y 0 [] []), none⟩] ∧
    History 1 (fun _ => none) [⟨.gate (.one .X 0 [] []), none⟩, ⟨.gate (.one .Y 0 [] []), none⟩] ⟨ψ, [], []⟩ uss ⟨ψ', [], []⟩ ∧ Draws rnd uss.flatten := by
  have hC := two_gates .X .Y
  obtain ⟨C', log, ho⟩ := C40_total hC (by norm_num) (by
    intro d hd
    simp only [List.mem_cons, List.not_mem_nil, or_false] at hd
    rcases hd with hd | hd <;> cases hd <;> trivial) mb
  have ho' := ho
  rw [two_paulis rfl rfl merge_XY] at ho'
  obtain ⟨s1, h1, ho'⟩ := bind_ok ho'
  obtain ⟨s2, h2, ho'⟩ := bind_ok ho'
  have hlog : log = [(.one .X ⟨1, 0, 0⟩, .one .Y ⟨1, 0, 0⟩)] := by
    cases ho'
    rw [show s2.log = s1.log by
      unfold OptState.finish at h2
      obtain ⟨gs', -, h2⟩ := bind_ok h2
      dsimp only at h2
      split at h2
      · obtain ⟨g, -, h2⟩ := bind_ok h2
        exact (push_log h2).trans rfl
      · cases h2; rfl, wait_log h1]
  refine ⟨_, C', log, _, _, hC, ho, by rw [hlog]; simp, ?_, ?_, ?_, plain_history (by
    intro l hl
    simp only [List.mem_cons, List.not_mem_nil, or_false] at hl
    rcases hl with rfl | rfl <;> exact ⟨rfl, trivial⟩) (by
    intro l hl k hk
    simp only [List.mem_cons, List.not_mem_nil, or_false] at hl
    rcases hl with rfl | rfl <;> cases hk) ψ [], by intro i hi; simp at hi⟩
  · intro p hp
    rw [hlog, List.mem_singleton] at hp
    subst hp
    refine ⟨fun g φ h q hq => ?_, fun k1 o1 k2 o2 a b e1 e2 ha hb => ?_⟩
    · rw [merge_XY] at h
      cases h
      exact hq.elim id id
    · cases e1
      exact ha.elim
  · intro d hd hnil
    simp only [List.mem_cons, List.not_mem_nil, or_false] at hd
    rcases hd with hd | hd <;> cases hd <;> simp [qubitsOf, targetsOf] at hnil
  · rintro ⟨l, hl, q, c, r, h⟩
    simp only [List.mem_cons, List.not_mem_nil, or_false] at hl
    rcases hl with rfl | rfl <;> cases h

/-- a circuit with a measurement and a conditional gate that meets the hypotheses of `C40_families_partial` -/
noncomputable def optLines : List Line := [⟨.gate (.one .H 0 [] []), none⟩, ⟨.gate (.one (.RZ 0.5) 0 [] []), none⟩,
  ⟨.gate (.one (.RX 1) 1 [] []), none⟩, ⟨.measure 0 0 false, none⟩, ⟨.gate (.one .X 1 [] []), some (bitCondition 0 true)⟩,
  ⟨.gate (.globalPhase 2 [] []), none⟩]

example : (∃ C, CircuitOf optLines C 2) ∧ Tangible optLines ∧ UnitaryIfMeasured optLines ∧
    (∀ d, (⟨.gate d, none⟩ : Line) ∈ optLines → NeverCancels d) ∧
    (∀ a b, IsRzAngle optLines a → IsRzAngle optLines b → a + b = 0 ∨ 2e-12 ≤ |a + b|) := by
  have hmem : ∀ d, (⟨.gate d, none⟩ : Line) ∈ optLines → d = .one .H 0 [] [] ∨ d = .one (.RZ 0.5) 0 [] [] ∨ d = .one (.RX 1) 1 [] [] ∨ d = .globalPhase 2 [] [] := by
    intro d hd
    simpa [optLines] using hd
  refine ⟨?_, ?_, ?_, ?_, ?_⟩
  · obtain ⟨C, hC⟩ := buildCircuit_of (ls := optLines) (by
      intro l hl
      simp only [optLines, List.mem_cons, List.not_mem_nil, or_false] at hl
      rcases hl with rfl | rfl | rfl | rfl | rfl | rfl
      · exact gate_builds _ (by norm_num)
      · exact gate_builds _ (by norm_num)
      · exact gate_builds _ (by norm_num)
      · exact measure_builds (by norm_num) _ _
      · exact gate_builds _ (by norm_num)
      · exact ⟨_, rfl⟩)
    refine ⟨C, hC, ?_, ?_⟩
    · intro l hl
      simp only [optLines, List.mem_cons, List.not_mem_nil, or_false] at hl
      rcases hl with rfl | rfl | rfl | rfl | rfl | rfl <;> trivial
    · intro l hl
      simp only [optLines, List.mem_cons, List.not_mem_nil, or_false] at hl
      rcases hl with rfl | rfl | rfl | rfl | rfl | rfl <;> simp [Instr.qubits, qubitsOf, targetsOf, controlsOf, ctrlList]
  · intro d hd hnil
    rcases hmem d hd with rfl | rfl | rfl | rfl
    · simp [qubitsOf, targetsOf] at hnil
    · simp [qubitsOf, targetsOf] at hnil
    · simp [qubitsOf, targetsOf] at hnil
    · exact .inr ⟨_, _, _, rfl⟩
  · intro _ d hd
    rcases hmem d hd with rfl | rfl | rfl | rfl
    · exact ⟨by simp, by simp⟩
    · exact ⟨by simp, by simp⟩
    · exact ⟨by simp, by simp⟩
    · trivial
  · intro d hd
    rcases hmem d hd with rfl | rfl | rfl | rfl <;> trivial
  · intro a b ha hb
    have hv : ∀ a, IsRzAngle optLines a → a = 0 ∨ a = 0.5 := by
      rintro a (h | ⟨q, cs, vs, h⟩)
      · exact .inl h
      · rcases hmem _ h with h | h | h | h <;> cases h
        exact .inr rfl
    rcases hv a ha with rfl | rfl <;> rcases hv b hb with rfl | rfl
    · left; norm_num
    · right; rw [abs_of_pos (by norm_num)]; norm_num
    · right; rw [abs_of_pos (by norm_num)]; norm_num
    · right; rw [abs_of_pos (by norm_num)]; norm_num

/-- the hypothesis of `C40_total` excludes nothing but permutation gates; the sample meets it -/
example : ∀ d, (⟨.gate d, none⟩ : Line) ∈ optLines → NoPermutation d := by
  intro d hd
  have : d = .one .H 0 [] [] ∨ d = .one (.RZ 0.5) 0 [] [] ∨ d = .one (.RX 1) 1 [] [] ∨ d = .globalPhase 2 [] [] := by simpa [optLines] using hd
  rcases this with rfl | rfl | rfl | rfl <;> trivial

end Verif.Props
