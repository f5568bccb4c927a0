import Verif.Proofs.QasmAccept
import Verif.Proofs.QasmLibc
import Verif.Proofs.QasmRegs
import Verif.Proofs.QasmSafe
import Verif.Props.Circuit

/-! # C48, C49, C60: OpenQASM

`loads` and `dumps` work on texts, character by character.  `strtod` and the output of a `double` with 17 digits belong to the C++
library; of them only `StrtodOK` and `FormatOK` (`Spec/Decimal.lean`) are assumed, and `exists_libc` shows that both can be met. -/

namespace Verif.Props
open Verif Verif.Spec Verif.Model Verif.Proofs
attribute [-simp] BitVec.getLsbD_eq_getElem

/-- the circuit was built from these lines, its angles are doubles, and its classical bits are below the largest 64-bit number -/
structure ExportInput (ls : List Line) (C : Circuit) : Prop where
  built : buildCircuit ls = .ok C
  args : ∀ l ∈ ls, l.instr.OK
  angles : ∀ l ∈ ls, ∀ θ ∈ l.instr.angles, IsDouble θ
  bits : ∀ q b reset c, ⟨.measure q b reset, c⟩ ∈ ls → b < 2 ^ 64 - 1

theorem fromFactory_instr {i : Instr} {g : Item} (hb : i.build = .ok g) (hok : i.OK) (ha : ∀ θ ∈ i.angles, IsDouble θ)
    (hbit : ∀ q b reset, i = .measure q b reset → b < 2 ^ 64 - 1) : FromFactory g := by
  cases i with
  | gate d =>
    obtain ⟨u, hu, hb⟩ := bind_ok (show (do let g ← d.build; pure (Sum.inl (Gate.det g))) = _ from hb)
    cases hb
    refine .inl ⟨u, rfl, (build_valid hok hu).1, ?_⟩
    intro θ hθ
    cases d with
    | one k q cs vs =>
      obtain ⟨o, -, hu⟩ := bind_ok (show (do let o ← mkOperands [q] cs vs; pure (UGate.one k o)) = _ from hu)
      cases hu
      refine ha θ ?_
      cases k <;> exact hθ
    | ident => cases hu; cases hθ
    | swap a b cs vs =>
      obtain ⟨o, -, hu⟩ := bind_ok (show (do let o ← mkOperands [a, b] cs vs; pure (UGate.swap o)) = _ from hu)
      cases hu; cases hθ
    | globalPhase p cs vs =>
      obtain ⟨o, -, hu⟩ := bind_ok (show (do let o ← mkOperands [] cs vs; pure (UGate.globalPhase p o)) = _ from hu)
      cases hu; cases hθ
    | ecr a b cs vs =>
      obtain ⟨o, -, hu⟩ := bind_ok (show (do let o ← mkEcr a b cs vs; pure (UGate.ecr o)) = _ from hu)
      cases hu; cases hθ
    | perm l =>
      obtain ⟨o, -, hu⟩ := bind_ok (show (do let o ← mkPerm l; pure (UGate.perm o)) = _ from hu)
      cases hu; cases hθ
    | dense ts M cs vs u =>
      obtain ⟨o, -, hu⟩ := bind_ok (show (do let o ← mkDense ts M cs vs u; pure (UGate.dense o)) = _ from hu)
      cases hu; cases hθ
    | sparse ts M cs vs =>
      obtain ⟨o, -, hu⟩ := bind_ok (show (do let o ← mkSparse ts M cs vs; pure (UGate.sparse o)) = _ from hu)
      cases hu; cases hθ
    | pauli p cs vs =>
      obtain ⟨o, -, hu⟩ := bind_ok (show (do let o ← mkPauli p cs vs; pure (UGate.pauli o)) = _ from hu)
      cases hu; cases hθ
    | pauliRot p a cs vs =>
      obtain ⟨o, -, hu⟩ := bind_ok (show (do let o ← mkPauli p cs vs; pure (UGate.pauliRot o a)) = _ from hu)
      cases hu; cases hθ
  | choice ps ds =>
    obtain ⟨gs, -, hb⟩ := bind_ok (show (do let gs ← ds.mapM GateDesc.build; let g ← mkProbabilistic (ps.map some) (gs.map .det); pure (Sum.inl g)) = _ from hb)
    obtain ⟨p, hp, hb⟩ := bind_ok hb
    cases hb
    unfold mkProbabilistic at hp
    obtain ⟨t, -, hp⟩ := bind_ok hp
    cases hp
    exact .inr (.inr (.inl ⟨t, rfl⟩))
  | measure q b reset =>
    obtain ⟨m, hm, hb⟩ := bind_ok (show (do let m ← mkMeas q b reset; pure (Sum.inl (Gate.meas m))) = _ from hb)
    cases hb
    exact .inr (.inl ⟨q, b, reset, m, rfl, hm, by have := hbit q b reset rfl; omega⟩)
  | rot r key =>
    obtain ⟨m, hm, hb⟩ := bind_ok (show (do let p ← r.build; pure (Sum.inr (PGate.rot p, key))) = _ from hb)
    cases hb
    exact .inr (.inr (.inr ⟨_, rfl⟩))
  | pchoice ps ls key =>
    obtain ⟨gs, -, hb⟩ := bind_ok (show (do let gs ← ls.mapM LeafDesc.build; let p ← mkParamProbabilistic (ps.map some) gs; pure (Sum.inr (p, key))) = _ from hb)
    obtain ⟨p, -, hb⟩ := bind_ok hb
    cases hb
    exact .inr (.inr (.inr ⟨_, rfl⟩))

theorem ExportInput.factory {ls : List Line} {C : Circuit} (h : ExportInput ls C) : ∀ g ∈ C.gates, FromFactory g := by
  obtain ⟨gs, hgs, rfl⟩ := buildCircuit_ok h.built
  intro g hg
  obtain ⟨hlen, hget⟩ := mapM_get _ hgs
  obtain ⟨i, hi, rfl⟩ := List.getElem_of_mem hg
  have hl : ls[i]'(by rw [← hlen]; exact hi) ∈ ls := List.getElem_mem _
  obtain ⟨b, hb, hg⟩ := hget i _ (List.getElem?_eq_getElem (by rw [← hlen]; exact hi))
  have hb' : gs[i]? = some gs[i] := List.getElem?_eq_getElem hi
  rw [hb'] at hb
  cases hb
  refine fromFactory_instr hg (h.args _ hl) (h.angles _ hl) ?_
  intro q b reset e
  refine h.bits q b reset (ls[i]'(by rw [← hlen]; exact hi)).cond ?_
  rw [← e]
  exact hl

/-! ## C48 -/

/-- **C48, for circuits without conditions.** If `dumps` succeeds, `loads` reads its text back without warnings; the circuit read does the same
as the original one on every state, register, random numbers and parameters, also in batches, and the numbers of qubits and
classical bits are the declared ones.

Missing from the full claim: conditions are lost (`C48_condition_counterexample`), and a measurement into the bit `2^64 - 1` gives a
text that cannot be read back (`C48_bit_counterexample`). -/
theorem C48_round_trip_partial {lib : Libc} (hs : StrtodOK lib.strtod) (hf : FormatOK lib.format) {ls : List Line} {C : Circuit}
    (h : ExportInput ls C) (hc : ∀ l ∈ ls, l.cond = none) {nq : Option Nat} (hq : ∀ n, nq = some n → n < 2 ^ 64) {text : Text}
    (hd : dumps lib C nq = .ok text) :
    ∃ R, loads lib text = .ok R ∧ R.warnings = [] ∧ R.nQubits = nq.getD C.requiredQubits ∧
      (∀ l ∈ ls, ∀ q ∈ l.instr.qubits, q < R.nQubits) ∧
      (∀ k, R.nClbits ≤ k ↔ ∀ q b reset c, ⟨.measure q b reset, c⟩ ∈ ls → b < k) ∧
      (∀ L n rnd θ ψ reg c' f, R.circuit.RunsOn L n rnd θ ψ reg c' f ↔ C.RunsOn L n rnd θ ψ reg c' f) ∧
      (∀ L B n rnd θ Ψ reg c' f, R.circuit.RunsBatched L B n rnd θ Ψ reg c' f ↔ C.RunsBatched L B n rnd θ Ψ reg c' f) := by
  have hfac := h.factory
  obtain ⟨R, hR, hcirc, hnq, hreq, hcl, hw⟩ := loads_dumps hs hf hfac hq hd
  obtain ⟨gs, hgs, rfl⟩ := buildCircuit_ok h.built
  have hC : (⟨gs, ls.map (·.cond)⟩ : Circuit) = noConds gs := by
    unfold noConds
    congr 1
    have hlen := (mapM_get _ hgs).1
    refine List.ext_getElem (by simp [hlen]) fun i h1 h2 => ?_
    simp only [List.getElem_map]
    exact hc _ (List.getElem_mem _)
  have hR' : R.circuit = noConds (gs.filter keep) := hcirc
  refine ⟨R, hR, hw, hnq, ?_, ?_, ?_, ?_⟩
  · have hk := (checkQubits_iff hgs h.args (cs := ls.map (·.cond)) R.nQubits).1
    refine hk.1 ?_
    unfold Circuit.checkQubits
    rw [if_neg (by omega)]
  · intro k
    rw [hcl k]
    have hmem := mem_built hgs (fun l => ∃ q b reset c, l = ⟨.measure q b reset, c⟩ ∧ ¬ b < k)
      (fun g : Item => ∃ m, g = .inl (.meas m) ∧ ¬ m.cbit < k) ?_
    · constructor
      · intro hall q b reset c hl
        by_contra hb
        obtain ⟨g, hg, m, rfl, hm⟩ := hmem.2 ⟨_, hl, q, b, reset, c, rfl, hb⟩
        exact hm (hall m hg)
      · intro hall m hm
        by_contra hb
        obtain ⟨l, hl, q, b, reset, c, rfl, hb'⟩ := hmem.1 ⟨_, hm, m, rfl, hb⟩
        exact hb' (hall q b reset c hl)
    · rintro ⟨i, c⟩ _ g hg
      dsimp only at hg
      cases i with
      | measure q b reset =>
        obtain ⟨m, hm, hg⟩ := bind_ok (show (do let m ← mkMeas q b reset; pure (Sum.inl (Gate.meas m))) = _ from hg)
        cases hg
        have hb : m.cbit = b := by
          unfold mkMeas at hm
          obtain ⟨t, -, hm⟩ := bind_ok hm
          obtain ⟨o, -, hm⟩ := bind_ok hm
          cases hm
          rfl
        constructor
        · rintro ⟨m', e, hk⟩
          cases e
          exact ⟨q, b, reset, c, rfl, by rwa [hb] at hk⟩
        · rintro ⟨q', b', r', c', e, hk⟩
          cases e
          exact ⟨m, rfl, by rwa [hb]⟩
      | gate d =>
        obtain ⟨u, hu, hg⟩ := bind_ok (show (do let g ← d.build; pure (Sum.inl (Gate.det g))) = _ from hg)
        cases hg
        simp
      | choice ps ds =>
        obtain ⟨gs, -, hg⟩ := bind_ok (show (do let gs ← ds.mapM GateDesc.build; let g ← mkProbabilistic (ps.map some) (gs.map .det); pure (Sum.inl g)) = _ from hg)
        obtain ⟨p, hp, hg⟩ := bind_ok hg
        cases hg
        unfold mkProbabilistic at hp
        obtain ⟨t, -, hp⟩ := bind_ok hp
        cases hp
        simp
      | rot r key =>
        obtain ⟨m, hm, hg⟩ := bind_ok (show (do let p ← r.build; pure (Sum.inr (PGate.rot p, key))) = _ from hg)
        cases hg
        simp
      | pchoice ps ls key =>
        obtain ⟨gs, -, hg⟩ := bind_ok (show (do let gs ← ls.mapM LeafDesc.build; let p ← mkParamProbabilistic (ps.map some) gs; pure (Sum.inr (p, key))) = _ from hg)
        obtain ⟨p, -, hg⟩ := bind_ok hg
        cases hg
        simp
  · intro L n rnd θ ψ reg c' f
    rw [hR', hC]
    exact runsOn_filter gs
  · intro L B n rnd θ Ψ reg c' f
    rw [hR', hC]
    exact runsBatched_filter gs

/-- **C48.** `dumps` succeeds exactly for circuits all of whose instructions OpenQASM 2.0 can express (conditions are not looked at), if the
number of qubits asked for is large enough and not zero; otherwise it throws. -/
theorem C48_accepts {lib : Libc} {ls : List Line} {C : Circuit} (h : ExportInput ls C) (nq : Option Nat) :
    ((∃ text, dumps lib C nq = .ok text) ↔ (∀ l ∈ ls, Exportable l.instr) ∧
      (∀ n, nq = some n → n ≠ 0 ∧ ∀ l ∈ ls, ∀ q ∈ l.instr.qubits, q < n) ∧
      (nq = none → ∃ l ∈ ls, ∃ q, q ∈ l.instr.qubits)) ∧
    ((¬ ∃ text, dumps lib C nq = .ok text) → ∃ m, dumps lib C nq = .error (.throw m)) := by
  have hv := dumps_verdict (lib := lib) h.built h.factory nq
  have hreq : ∀ n, C.requiredQubits ≤ n ↔ ∀ l ∈ ls, ∀ q ∈ l.instr.qubits, q < n := by
    intro n
    obtain ⟨gs, hgs, rfl⟩ := buildCircuit_ok h.built
    rw [← (checkQubits_iff hgs h.args (cs := ls.map (·.cond)) n).1]
    unfold Circuit.checkQubits
    split
    · simp; omega
    · simp; omega
  have hP : ((∀ l ∈ ls, Exportable l.instr) ∧ C.requiredQubits ≤ nq.getD C.requiredQubits ∧ nq.getD C.requiredQubits ≠ 0) ↔
      (∀ l ∈ ls, Exportable l.instr) ∧ (∀ n, nq = some n → n ≠ 0 ∧ ∀ l ∈ ls, ∀ q ∈ l.instr.qubits, q < n) ∧
      (nq = none → ∃ l ∈ ls, ∃ q, q ∈ l.instr.qubits) := by
    refine and_congr_right fun _ => ?_
    cases nq with
    | some n =>
      simp only [Option.getD_some, Option.some.injEq, hreq]
      constructor
      · rintro ⟨h1, h2⟩
        exact ⟨fun m hm => hm ▸ ⟨h2, h1⟩, fun h => by cases h⟩
      · rintro ⟨h1, -⟩
        exact ⟨(h1 n rfl).2, (h1 n rfl).1⟩
    | none =>
      simp only [Option.getD_none, le_refl, true_and]
      have h0 : C.requiredQubits ≠ 0 ↔ ∃ l ∈ ls, ∃ q, q ∈ l.instr.qubits := by
        rw [← not_iff_not]
        push Not
        rw [← Nat.le_zero, hreq]
        simp
      rw [h0]
      simp
  rcases hv with ⟨hp, a, ha⟩ | ⟨hp, m, hm⟩
  · refine ⟨⟨fun _ => hP.1 hp, fun _ => ⟨a, ha⟩⟩, fun hn => absurd ⟨a, ha⟩ hn⟩
  · refine ⟨⟨?_, fun hp' => absurd (hP.2 hp') hp⟩, fun _ => ⟨m, hm⟩⟩
    rintro ⟨t, ht⟩
    rw [hm] at ht
    cases ht

/-- X on qubit 0 if classical bit 0 is set -/
noncomputable def condLines : List Line := [⟨.gate (.one .X 0 [] []), some (bitCondition 0 true)⟩]

theorem condLines_of : ∃ C, CircuitOf condLines C 1 ∧ ExportInput condLines C := by
  obtain ⟨C, hC⟩ := buildCircuit_of (ls := condLines) (by
    intro l hl
    simp only [condLines, List.mem_cons, List.not_mem_nil, or_false] at hl
    subst hl
    exact gate_builds _ (by norm_num))
  refine ⟨C, ⟨hC, ?_, ?_⟩, ⟨hC, ?_, ?_, ?_⟩⟩
  · intro l hl
    simp only [condLines, List.mem_cons, List.not_mem_nil, or_false] at hl
    subst hl
    simp [Instr.OK, DescOK]
  · intro l hl
    simp only [condLines, List.mem_cons, List.not_mem_nil, or_false] at hl
    subst hl
    simp [Instr.qubits, qubitsOf, targetsOf, controlsOf, ctrlList]
  · intro l hl
    simp only [condLines, List.mem_cons, List.not_mem_nil, or_false] at hl
    subst hl
    simp [Instr.OK, DescOK]
  · intro l hl
    simp only [condLines, List.mem_cons, List.not_mem_nil, or_false] at hl
    subst hl
    simp [Instr.angles]
  · intro q b reset c hl
    simp [condLines] at hl

/-- **C48 fails for conditions.** X on qubit 0 under the condition "bit 0 is set" is exported without an error, but the text read back is the
unconditional X: with the bit cleared, the original leaves every state as it is and the other circuit moves the amplitude of `|0⟩` to `|1⟩`. -/
theorem C48_condition_counterexample {lib : Libc} (hs : StrtodOK lib.strtod) (hf : FormatOK lib.format) {L : Nat} (hL : LanesOK L)
    (rnd : Nat → ℝ) (θ : String → Option ℝ) (ψ : U64 → ℂ) :
    ∃ C text R ψ', ExportInput condLines C ∧ dumps lib C none = .ok text ∧ loads lib text = .ok R ∧ R.warnings = [] ∧
      (∀ c' f, C.RunsOn L 1 rnd θ ψ [false] c' f ↔ c' = ⟨ψ, [false], 0⟩ ∧ f = none) ∧
      (∀ c' f, R.circuit.RunsOn L 1 rnd θ ψ [false] c' f ↔ c' = ⟨ψ', [false], 0⟩ ∧ f = none) ∧
      ψ' 0 = ψ 1 ∧ ψ' 1 = ψ 0 := by
  obtain ⟨C, hC, hE⟩ := condLines_of
  have hacc := (C48_accepts (lib := lib) hE none).1.2 ⟨by
      intro l hl
      simp only [condLines, List.mem_cons, List.not_mem_nil, or_false] at hl
      subst hl
      simp [Exportable, maxControls, effectiveValues], by simp, fun _ => ⟨_, List.mem_cons_self, 0, by simp [Instr.qubits, qubitsOf, targetsOf]⟩⟩
  obtain ⟨text, htext⟩ := hacc
  obtain ⟨R, hR, hcirc, -, -, -, hw⟩ := loads_dumps hs hf hE.factory (by simp) htext
  have hk : ∀ c, KeysGiven [⟨.gate (.one .X 0 [] []), c⟩] θ := by
    intro c l hl k hk
    simp only [List.mem_cons, List.not_mem_nil, or_false] at hl
    subst hl
    simp [Instr.key?] at hk
  have h1 : ∀ c' f, C.RunsOn L 1 rnd θ ψ [false] c' f ↔ c' = ⟨ψ, [false], 0⟩ ∧ f = none :=
    C38_in_order hC hL (by norm_num) (hk _) (.cons _ _ _ _ _ _ _ (.skip _ ⟨ψ, [false], []⟩ rfl) (.nil _)) (rnd := rnd)
      (by intro i hi; simp at hi)
  have hB : CircuitOf [⟨.gate (.one .X 0 [] []), none⟩] R.circuit 1 := by
    obtain ⟨gs, hgs, rfl⟩ := buildCircuit_ok hC.built
    obtain ⟨g, hg⟩ := gate_builds .X (q := 0) (by norm_num)
    have hg' : gs = [g] := by
      have : condLines.mapM (fun l => l.instr.build) = .ok [g] := by
        simp only [condLines, List.mapM_cons, List.mapM_nil, hg, ok_bind]
        rfl
      rw [hgs] at this
      cases this
      rfl
    subst hg'
    have hkeep : keep g = true := by
      obtain ⟨u, hu, hg⟩ := bind_ok (show (do let g ← (GateDesc.one .X 0 [] []).build; pure (Sum.inl (Gate.det g))) = _ from hg)
      cases hg
      obtain ⟨o, -, hu⟩ := bind_ok (show (do let o ← mkOperands [0] [] []; pure (UGate.one .X o)) = _ from hu)
      cases hu
      rfl
    obtain ⟨D, hD⟩ := buildCircuit_of (ls := [⟨.gate (.one .X 0 [] []), none⟩]) (by
      intro l hl
      simp only [List.mem_cons, List.not_mem_nil, or_false] at hl
      subst hl
      exact ⟨g, hg⟩)
    have hRD : R.circuit = D := by
      rw [hcirc]
      obtain ⟨gs, hgs', rfl⟩ := buildCircuit_ok hD
      have : gs = [g] := by
        simp only [List.mapM_cons, List.mapM_nil, hg, ok_bind] at hgs'
        cases hgs'
        rfl
      subst this
      simp [hkeep]
    rw [hRD]
    refine ⟨hD, ?_, ?_⟩
    · intro l hl
      simp only [List.mem_cons, List.not_mem_nil, or_false] at hl
      subst hl
      simp [Instr.OK, DescOK]
    · intro l hl
      simp only [List.mem_cons, List.not_mem_nil, or_false] at hl
      subst hl
      simp [Instr.qubits, qubitsOf, targetsOf, controlsOf, ctrlList]
  have h2 := C38_in_order hB hL (by norm_num) (hk none) (.cons _ _ _ _ _ _ _ (.gate _ _ ⟨ψ, [false], []⟩ rfl (by simp)) (.nil _)) (rnd := rnd)
      (by intro i hi; simp at hi)
  refine ⟨C, text, R, _, hE, htext, hR, hw, h1, h2, ?_, ?_⟩
  · show (if (0 : U64).toNat < 2 ^ 1 then applyMat [0] (gate1Mat .X) [] ψ 0 else ψ 0) = _
    rw [if_pos (by decide), applyMat_one, if_pos (by simp [CtrlOK])]
    rw [show setBit 0 0 true = (1 : U64) by decide, show (0 : U64).getLsbD 0 = false by decide]
    simp [gate1Mat, pauliX, mat2]
  · show (if (1 : U64).toNat < 2 ^ 1 then applyMat [0] (gate1Mat .X) [] ψ 1 else ψ 1) = _
    rw [if_pos (by decide), applyMat_one, if_pos (by simp [CtrlOK])]
    rw [show setBit 1 0 false = (0 : U64) by decide, show (1 : U64).getLsbD 0 = true by decide]
    simp [gate1Mat, pauliX, mat2]

/-- measurement of qubit 0 into the classical bit `2^64 - 1` -/
noncomputable def farBitLines : List Line := [⟨.measure 0 (2 ^ 64 - 1) false, none⟩]

/-- **C48 fails for the classical bit `2^64 - 1`.** The number of classical bits wraps to 0, so no `creg` is declared and the text cannot be
read back. -/
theorem C48_bit_counterexample (lib : Libc) : ∃ C text m, buildCircuit farBitLines = .ok C ∧ dumps lib C none = .ok text ∧
    loads lib text = .error (.throw m) := by
  obtain ⟨C, hC⟩ := buildCircuit_of (ls := farBitLines) (by
    intro l hl
    simp only [farBitLines, List.mem_cons, List.not_mem_nil, or_false] at hl
    subst hl
    exact measure_builds (by norm_num) _ _)
  obtain ⟨gs, hgs, rfl⟩ := buildCircuit_ok hC
  obtain ⟨g, hg⟩ := measure_builds (q := 0) (by norm_num) (2 ^ 64 - 1) false
  have hgs' : gs = [g] := by
    simp only [farBitLines, List.mapM_cons, List.mapM_nil, hg, ok_bind] at hgs
    cases hgs
    rfl
  subst hgs'
  obtain ⟨m, hm, hg'⟩ := bind_ok (show (do let m ← mkMeas 0 (2 ^ 64 - 1) false; pure (Sum.inl (Gate.meas m))) = _ from hg)
  cases hg'
  have hv : Verdict (lowered lib (.inl (.meas m))) True := (lowered_verdict (lib := lib) hg).congr (by simp [Exportable])
  obtain ⟨-, op, hop⟩ | ⟨hn, -⟩ := hv
  rotate_left
  · exact absurd trivial hn
  cases op with
  | none => have := lowered_none hop; cases this
  | some op =>
    obtain ⟨rfl, -, -⟩ := lowered_measure hm hop
    have hd : ∃ text, dumps lib ⟨[.inl (.meas m)], farBitLines.map (·.cond)⟩ none = .ok text := by
      unfold dumps
      rw [List.foldlM_cons, dumpStep_eq, hop]
      exact ⟨_, rfl⟩
    obtain ⟨text, hd⟩ := hd
    refine ⟨_, text, "unknown register", hC, hd, ?_⟩
    obtain ⟨ops, rq, rc, he, hrq, hrc, -, -, rfl⟩ := dumps_text hd
    have hops : ops = [.measure 0 (2 ^ 64 - 1)] := by
      cases he with
      | skip _ _ _ h0 _ => rw [hop] at h0; cases h0
      | cons _ _ op ops h0 h1 =>
        rw [hop] at h0
        cases h0
        cases h1
        rfl
    subst hops
    have h1 : rq = 1 := by rw [hrq]; rfl
    have h2 : rc = 0 := by rw [hrc]; rfl
    rw [h1, h2]
    have hq : t! "qreg" ++ ' ' :: indexed 'q' ((none : Option Nat).getD 1) = t! "qreg q[1]" := by simp [indexed, decimal]
    have hmt : stmtOf (.measure 0 (2 ^ 64 - 1)) = t! "measure q[0] -> c[18446744073709551615]" := by simp [stmtOf, indexed, decimal]
    rw [hq, List.map_cons, hmt]
    unfold loads
    rw [if_neg (by simp), List.map_nil, split_exported _ (by
      intro s hs
      simp only [List.cons_append, List.nil_append, List.mem_cons, List.not_mem_nil, or_false] at hs
      rcases hs with rfl | rfl
      · exact ⟨by unfold Plain; decide, by unfold Trimmed; decide, by decide⟩
      · exact ⟨by unfold Plain; decide, by unfold Trimmed; decide, by decide⟩)]
    rfl

/-! ## C60 -/

/-- **C60.** Reading a text, whatever it is, never has undefined behaviour: `loads` returns a circuit or throws. -/
theorem C60_loads_defined (lib : Libc) (text : Text) : (∃ R, loads lib text = .ok R) ∨ ∃ m, loads lib text = .error (.throw m) :=
  loads_defined lib text

/-! ## C49 -/

/-- the operand `name[i]` of a gate in a program whose declarations gave these registers denotes the flat index `a` -/
def Denotes (regs : Registers) (name : Text) (i a : Nat) : Prop := parseIndexedRegister (elementText name i) regs = .ok a

/-- **C49, for registers with fewer than `2^64` elements altogether.** Elements of the quantum registers of a program denote qubits below the
reported number of qubits, different elements denote different qubits, and what is not an element throws; the same for classical registers.

Missing from the full claim: programs whose register sizes add up to `2^64` or more (`C49_counterexample`). -/
theorem C49_registers_partial {lib : Libc} {text : Text} {R : Reader} (h : loads lib text = .ok R)
    (hq : totalSize (declsOf R.qregs) < 2 ^ 64) (hc : totalSize (declsOf R.cregs) < 2 ^ 64) :
    ∀ regs total, (regs, total) = (R.qregs, R.nQubits) ∨ (regs, total) = (R.cregs, R.nClbits) →
      (∀ name i a, RegName name → i < 2 ^ 64 → (Denotes regs name i a ↔ flatIndex (declsOf regs) name i = some a)) ∧
      (∀ name i a, RegName name → i < 2 ^ 64 → Denotes regs name i a → a < total) ∧
      (∀ name name' i i' a, RegName name → RegName name' → i < 2 ^ 64 → i' < 2 ^ 64 → Denotes regs name i a → Denotes regs name' i' a →
        name = name' ∧ i = i') ∧
      (∀ name i, RegName name → i < 2 ^ 64 → (∀ a, ¬ Denotes regs name i a) → ∃ m, parseIndexedRegister (elementText name i) regs = .error (.throw m)) := by
  obtain ⟨cq, cc⟩ := loads_consecutive h
  intro regs total e
  have hcons : Consecutive regs total ∧ totalSize (declsOf regs) < 2 ^ 64 := by
    rcases e with e | e <;> (obtain ⟨rfl, rfl⟩ := Prod.mk.inj e)
    · exact ⟨cq, hq⟩
    · exact ⟨cc, hc⟩
  obtain ⟨hcs, hlt⟩ := hcons
  have hd : ∀ name i a, RegName name → i < 2 ^ 64 → (Denotes regs name i a ↔ flatIndex (declsOf regs) name i = some a) := by
    intro name i a hn hi
    obtain ⟨h1, h2⟩ := operand_flat hcs hlt hn hi
    refine ⟨fun hd => ?_, h1 a⟩
    unfold Denotes at hd
    cases hf : flatIndex (declsOf regs) name i with
    | none =>
      obtain ⟨m, hm⟩ := h2 hf
      rw [hm] at hd
      cases hd
    | some b =>
      rw [h1 b hf] at hd
      cases hd
      rfl
  refine ⟨hd, ?_, ?_, ?_⟩
  · intro name i a hn hi hda
    have := flatIndex_lt ((hd name i a hn hi).1 hda)
    rw [hcs.2, Nat.mod_eq_of_lt hlt]
    exact this
  · intro name name' i i' a hn hn' hi hi' h1 h2
    exact flatIndex_inj ((hd name i a hn hi).1 h1) ((hd name' i' a hn' hi').1 h2)
  · intro name i hn hi hno
    refine (operand_flat hcs hlt hn hi).2 ?_
    cases hf : flatIndex (declsOf regs) name i with
    | none => rfl
    | some b => exact absurd ((hd name i b hn hi).2 hf) (hno b)

/-- **C49.** An operand means the same qubit or bit at every place of the program: what it denotes when a statement is read is what it denotes at
the end. -/
theorem C49_stable {lib : Libc} {text : Text} {R r : Reader} {before after : List Text} (hs : splitStatements text = .ok (before ++ after))
    (h : loads lib text = .ok R) (hr : before.foldlM (Reader.handle lib) .start = .ok r) (operand : Text) (a : Nat) :
    (parseIndexedRegister operand r.qregs = .ok a → parseIndexedRegister operand R.qregs = .ok a) ∧
    (parseIndexedRegister operand r.cregs = .ok a → parseIndexedRegister operand R.cregs = .ok a) := by
  unfold loads at h
  rw [hs, ok_bind, List.foldlM_append, hr, ok_bind] at h
  obtain ⟨⟨m1, e1⟩, m2, e2⟩ := statements_prefix h
  rw [e1, e2]
  exact ⟨operand_prefix, operand_prefix⟩

/-- three registers whose sizes add up to `2^64 + 2` -/
def wrapText : Text := t! "OPENQASM 2.0;\ninclude \"qelib1.inc\";\nqreg a[1];\nqreg b[18446744073709551615];\nqreg c[2];\nx a[0];\nx c[0];\n"

/-- the reader after the three declarations -/
def wrapReader (c : Circuit) : Reader :=
  ⟨c, 2, 0, [], [(t! "a", ⟨0, 1⟩), (t! "b", ⟨1, 18446744073709551615⟩), (t! "c", ⟨0, 2⟩)], [], true⟩

/-- **C49 fails when the sizes wrap.** In this program `a[0]` and `c[0]` are the same qubit: the text is read without a warning, and the circuit
has both X gates on qubit 0. -/
theorem C49_counterexample (lib : Libc) : ∃ R g, loads lib wrapText = .ok R ∧ R.warnings = [] ∧ R.nQubits = 2 ∧
    (GateDesc.one .X 0 [] []).build = .ok g ∧ R.circuit.gates = [.inl (.det g), .inl (.det g)] ∧
    Denotes R.qregs (t! "a") 0 0 ∧ Denotes R.qregs (t! "c") 0 0 := by
  obtain ⟨o, ho⟩ : ∃ o, mkOperands [0] [] [] = .ok o := by
    obtain ⟨g, hg⟩ := gate_builds .X (q := 0) (by norm_num)
    obtain ⟨u, hu, -⟩ := bind_ok (show (do let g ← (GateDesc.one .X 0 [] []).build; pure (Sum.inl (Gate.det g))) = _ from hg)
    obtain ⟨o, ho, -⟩ := bind_ok (show (do let o ← mkOperands [0] [] []; pure (UGate.one .X o)) = _ from hu)
    exact ⟨o, ho⟩
  have hb : (GateDesc.one .X 0 [] []).build = .ok (.one .X o) := by
    show (do let o ← mkOperands [0] [] []; pure (UGate.one .X o)) = _
    rw [ho]
    rfl
  have hsplit : splitStatements wrapText = .ok [t! "OPENQASM 2.0", t! "include \"qelib1.inc\"", t! "qreg a[1]",
      t! "qreg b[18446744073709551615]", t! "qreg c[2]", t! "x a[0]", t! "x c[0]"] := by
    have := split_exported [t! "qreg a[1]", t! "qreg b[18446744073709551615]", t! "qreg c[2]", t! "x a[0]", t! "x c[0]"] (by
      intro s hs
      simp only [List.mem_cons, List.not_mem_nil, or_false] at hs
      rcases hs with rfl | rfl | rfl | rfl | rfl <;> exact ⟨by unfold Plain; decide, by unfold Trimmed; decide, by decide⟩)
    exact this
  have h5 : [t! "OPENQASM 2.0", t! "include \"qelib1.inc\"", t! "qreg a[1]", t! "qreg b[18446744073709551615]", t! "qreg c[2]"].foldlM
      (Reader.handle lib) .start = .ok (wrapReader .empty) := rfl
  have hx : ∀ (c : Circuit) (s : Text), s = t! "x a[0]" ∨ s = t! "x c[0]" →
      Reader.handle lib (wrapReader c) s =
        .ok (wrapReader (c.addGate (.det (.one .X o)))) := by
    intro c s hs
    rcases hs with rfl | rfl
    · have h1 : splitCommaList (t! "a[0]") = .ok [t! "a[0]"] := rfl
      have h2 : parseIndexedRegister (t! "a[0]") (wrapReader c).qregs = .ok 0 := rfl
      show (do
        let operands ← splitCommaList (t! "a[0]")
        let qubits ← operands.mapM fun operand => parseIndexedRegister operand (wrapReader c).qregs
        if ¬ qubits.Nodup then .error (.throw "gate operands must be distinct qubits")
        else
          match ← gateNamed (t! "x") [] qubits with
          | none => pure (wrapReader c)
          | some d => Reader.add (wrapReader c) d) = _
      rw [h1, ok_bind, List.mapM_cons, h2, ok_bind, List.mapM_nil]
      show (if ¬ [0].Nodup then .error (.throw "gate operands must be distinct qubits") else Reader.add (wrapReader c) (.one .X 0 [] [])) = _
      rw [if_neg (by simp)]
      unfold Reader.add
      rw [hb]
      rfl
    · have h1 : splitCommaList (t! "c[0]") = .ok [t! "c[0]"] := rfl
      have h2 : parseIndexedRegister (t! "c[0]") (wrapReader c).qregs = .ok 0 := rfl
      show (do
        let operands ← splitCommaList (t! "c[0]")
        let qubits ← operands.mapM fun operand => parseIndexedRegister operand (wrapReader c).qregs
        if ¬ qubits.Nodup then .error (.throw "gate operands must be distinct qubits")
        else
          match ← gateNamed (t! "x") [] qubits with
          | none => pure (wrapReader c)
          | some d => Reader.add (wrapReader c) d) = _
      rw [h1, ok_bind, List.mapM_cons, h2, ok_bind, List.mapM_nil]
      show (if ¬ [0].Nodup then .error (.throw "gate operands must be distinct qubits") else Reader.add (wrapReader c) (.one .X 0 [] [])) = _
      rw [if_neg (by simp)]
      unfold Reader.add
      rw [hb]
      rfl
  refine ⟨wrapReader ((Circuit.empty.addGate (.det (.one .X o))).addGate (.det (.one .X o))), .one .X o, ?_, rfl, rfl, hb, rfl, ?_, ?_⟩
  · unfold loads
    rw [hsplit, ok_bind]
    rw [show [t! "OPENQASM 2.0", t! "include \"qelib1.inc\"", t! "qreg a[1]",
      t! "qreg b[18446744073709551615]", t! "qreg c[2]", t! "x a[0]", t! "x c[0]"] = [t! "OPENQASM 2.0", t! "include \"qelib1.inc\"", t! "qreg a[1]",
      t! "qreg b[18446744073709551615]", t! "qreg c[2]"] ++ [t! "x a[0]", t! "x c[0]"] from rfl, List.foldlM_append, h5, ok_bind,
      List.foldlM_cons, hx _ _ (.inl rfl), ok_bind, List.foldlM_cons, hx _ _ (.inr rfl), ok_bind]
    rfl
  · unfold Denotes elementText
    rw [show decimal 0 = t! "0" by simp [decimal]]
    rfl
  · unfold Denotes elementText
    rw [show decimal 0 = t! "0" by simp [decimal]]
    rfl


/-! ## the premises are met -/

/-- H, a rotation by 1/2, an identity gate and a measurement into bit 3 -/
noncomputable def qasmLines : List Line := [⟨.gate (.one .H 0 [] []), none⟩, ⟨.gate (.one (.RX (1 / 2)) 1 [] []), none⟩,
  ⟨.gate .ident, none⟩, ⟨.measure 1 3 false, none⟩]

/-- C48: there are a `strtod`, a number format and a circuit that meet every premise, and `dumps` succeeds on it -/
example : ∃ (lib : Libc) (C : Circuit) (text : Text), StrtodOK lib.strtod ∧ FormatOK lib.format ∧ ExportInput qasmLines C ∧
    (∀ l ∈ qasmLines, l.cond = none) ∧ dumps lib C (some 5) = .ok text := by
  obtain ⟨lib, hs, hf⟩ := exists_libc
  obtain ⟨C, hC⟩ := buildCircuit_of (ls := qasmLines) (by
    intro l hl
    simp only [qasmLines, List.mem_cons, List.not_mem_nil, or_false] at hl
    rcases hl with rfl | rfl | rfl | rfl
    · exact gate_builds _ (by norm_num)
    · exact gate_builds _ (by norm_num)
    · exact ⟨_, rfl⟩
    · exact measure_builds (by norm_num) _ _)
  have hE : ExportInput qasmLines C := by
    refine ⟨hC, ?_, ?_, ?_⟩
    · intro l hl
      simp only [qasmLines, List.mem_cons, List.not_mem_nil, or_false] at hl
      rcases hl with rfl | rfl | rfl | rfl <;> simp [Instr.OK, DescOK]
    · intro l hl
      simp only [qasmLines, List.mem_cons, List.not_mem_nil, or_false] at hl
      rcases hl with rfl | rfl | rfl | rfl <;> simp [Instr.angles]
      exact ⟨1, -1, by norm_num, by norm_num, by norm_num, by norm_num⟩
    · intro q b reset c hl
      simp [qasmLines] at hl
      obtain ⟨-, rfl, -⟩ := hl.1
      norm_num
  obtain ⟨text, ht⟩ := (C48_accepts (lib := lib) hE (some 5)).1.2 ⟨by
      intro l hl
      simp only [qasmLines, List.mem_cons, List.not_mem_nil, or_false] at hl
      rcases hl with rfl | rfl | rfl | rfl <;> simp [Exportable, maxControls, effectiveValues], by
      intro n hn
      cases hn
      refine ⟨by norm_num, ?_⟩
      intro l hl
      simp only [qasmLines, List.mem_cons, List.not_mem_nil, or_false] at hl
      rcases hl with rfl | rfl | rfl | rfl <;> simp [Instr.qubits, qubitsOf, targetsOf, controlsOf, ctrlList], by simp⟩
  refine ⟨lib, C, text, hs, hf, hE, ?_, ht⟩
  intro l hl
  simp only [qasmLines, List.mem_cons, List.not_mem_nil, or_false] at hl
  rcases hl with rfl | rfl | rfl | rfl <;> rfl

/-- a program with three registers -/
def regText : Text := t! "OPENQASM 2.0;\ninclude \"qelib1.inc\";\nqreg a[2];\ncreg c[4];\nqreg b[3];\n"

/-- C49: this program is read, its registers have five and four elements, `b[1]` denotes qubit 3, and `c` exists before `b` -/
example (lib : Libc) : ∃ R r before after, loads lib regText = .ok R ∧ totalSize (declsOf R.qregs) < 2 ^ 64 ∧ totalSize (declsOf R.cregs) < 2 ^ 64 ∧
    Denotes R.qregs (t! "b") 1 3 ∧ RegName (t! "b") ∧ splitStatements regText = .ok (before ++ after) ∧
    before.foldlM (Reader.handle lib) .start = .ok r ∧ Denotes r.cregs (t! "c") 1 1 := by
  have hsplit : splitStatements regText = .ok [t! "OPENQASM 2.0", t! "include \"qelib1.inc\"", t! "qreg a[2]", t! "creg c[4]", t! "qreg b[3]"] := by
    have := split_exported [t! "qreg a[2]", t! "creg c[4]", t! "qreg b[3]"] (by
      intro s hs
      simp only [List.mem_cons, List.not_mem_nil, or_false] at hs
      rcases hs with rfl | rfl | rfl <;> exact ⟨by unfold Plain; decide, by unfold Trimmed; decide, by decide⟩)
    exact this
  refine ⟨⟨.empty, 5, 4, [], [(t! "a", ⟨0, 2⟩), (t! "b", ⟨2, 3⟩)], [(t! "c", ⟨0, 4⟩)], true⟩,
    ⟨.empty, 2, 4, [], [(t! "a", ⟨0, 2⟩)], [(t! "c", ⟨0, 4⟩)], true⟩,
    [t! "OPENQASM 2.0", t! "include \"qelib1.inc\"", t! "qreg a[2]", t! "creg c[4]"], [t! "qreg b[3]"], ?_, ?_, ?_, ?_, ?_, ?_, ?_, ?_⟩
  · unfold loads
    rw [hsplit]
    rfl
  · decide
  · decide
  · unfold Denotes elementText
    rw [show decimal 1 = t! "1" by simp [decimal]]
    rfl
  · unfold RegName; decide
  · exact hsplit
  · rfl
  · unfold Denotes elementText
    rw [show decimal 1 = t! "1" by simp [decimal]]
    rfl

end Verif.Props
