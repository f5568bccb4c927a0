import Verif.Proofs.BlockPair
import Verif.Proofs.Json
import Verif.Props.Optimize

/-! # C102: the block size of `Circuit::optimize`

The documentation (/repo/include/scaluq/circuit/circuit.hpp:482-486) says that neighbouring gates are merged if the new gate acts on at most
`max_block_size` qubits or is a Pauli gate. -/

namespace Verif.Props
open Verif Verif.Spec Verif.Model Verif.Proofs
attribute [-simp] BitVec.getLsbD_eq_getElem

/-- an X, Y, Z or Pauli gate, possibly controlled -/
def IsPauliGate (g : UGate) : Prop := (∃ o, g = .one .X o ∨ g = .one .Y o ∨ g = .one .Z o) ∨ ∃ P, g = .pauli P

theorem isPauli_iff {g : UGate} : isPauli g = true ↔ IsPauliGate g := by
  unfold IsPauliGate
  cases g with
  | one k o => cases k <;> simp [isPauli]
  | _ => simp [isPauli]

/-- the unconditional gates of a circuit are gate objects on its qubits -/
theorem entry_valid {ls : List Line} {C : Circuit} {n : Nat} (h : CircuitOf ls C n) :
    ∀ g, (none, .inl (.det g)) ∈ C.conds.zip C.gates → Valid g ∧ InReg C.requiredQubits g := by
  obtain ⟨-, hq⟩ := requiredQubits_spec h
  obtain ⟨gs, hgs, hCe⟩ := buildCircuit_ok h.built
  intro g hg
  obtain ⟨i, hi⟩ := List.mem_iff_getElem?.1 hg
  rw [List.getElem?_zip_eq_some] at hi
  obtain ⟨-, hi⟩ := hi
  obtain ⟨e1, e2⟩ := mapM_get _ hgs
  rw [show C.gates = gs by rw [hCe]] at hi
  have hlt := (List.getElem?_eq_some_iff.1 hi).1
  obtain ⟨b, hb, hb'⟩ := e2 i _ (List.getElem?_eq_getElem (by omega))
  rw [hi] at hb
  cases hb
  have hl : ls[i]'(by omega) ∈ ls := List.getElem_mem _
  obtain ⟨d, hd, hdb⟩ := gate_instr hb'
  have hok := h.args _ hl
  have hqs := hq _ hl
  rw [hd] at hok hqs
  exact ⟨(build_valid hok hdb).1, fun q hx => hqs q ((build_mask hok hdb q).1 hx)⟩

/-- **C102, the bound.** For every circuit and every block size: if `optimize(mb)` returns normally, every entry of the new circuit is an entry
of the old one with its condition, or it is an unconditional gate that is a Pauli gate or has at most `mb` target qubits. -/
theorem C102_bound {ls : List Line} {C C' : Circuit} {log : List (UGate × UGate)} {n mb : Nat} (h : CircuitOf ls C n) (hn : n < 64)
    (ho : C.optimize mb = .ok (C', log)) :
    C'.conds.length = C'.gates.length ∧ ∀ e ∈ C'.conds.zip C'.gates, e ∈ C.conds.zip C.gates ∨
      ∃ g, e = (none, .inl (.det g)) ∧ (IsPauliGate g ∨ g.targetQubitList.length ≤ mb) := by
  obtain ⟨hN, -⟩ := requiredQubits_spec h
  have hlen := built_lengths h.built
  unfold Circuit.optimize at ho
  obtain ⟨s1, h1, ho⟩ := bind_ok ho
  obtain ⟨s2, h2, ho⟩ := bind_ok ho
  cases ho
  rw [optLoop_eq hlen] at h1
  have hv := entry_valid h
  have hB : Blk C.requiredQubits mb (C.conds.zip C.gates) s1 := by
    refine Blk.loop (lt_of_le_of_lt hN hn) (l := C.conds.zip C.gates) ⟨?_, by simp, rfl, by simp⟩ (fun p hp => hp) hv h1
    intro q i hqi
    dsimp only at hqi
    rw [List.getElem?_replicate] at hqi
    split at hqi <;> simp at hqi
  obtain ⟨e1, e2⟩ := hB.finish h2
  refine ⟨e1, fun e he => ?_⟩
  rcases e2 e he with h | ⟨g, rfl, hS⟩
  · exact .inl h
  · rcases hS with hS | hS | hS
    · exact .inr ⟨g, rfl, .inl (isPauli_iff.1 hS)⟩
    · exact .inl hS
    · exact .inr ⟨g, rfl, .inr hS⟩

open Classical in
/-- the qubits of two gates, without the control qubits they share with the same value -/
noncomputable def Block (g1 g2 : UGate) : Finset Nat :=
  (g1.operandQubitList ++ g2.operandQubitList).toFinset.filter fun q =>
    ¬ ∃ b, (q, b) ∈ g1.controlQubitList.zip g1.controlValueList ∧ (q, b) ∈ g2.controlQubitList.zip g2.controlValueList

/-- two Pauli gates with the same controls -/
def PauliPair (g1 g2 : UGate) : Prop :=
  IsPauliGate g1 ∧ IsPauliGate g2 ∧ g1.controlQubitList = g2.controlQubitList ∧ g1.controlValueList = g2.controlValueList

theorem mem_ctrl {o : Operands} {q b : Nat} : (q, b) ∈ (maskToVector o.c).zip (maskToVector2 o.c o.v) ↔ o.c.getLsbD q = true ∧ b = (o.v.getLsbD q).toNat := by
  rw [zip_self, List.mem_map]
  constructor
  · rintro ⟨a, ha, h⟩
    simp only [Prod.mk.injEq] at h
    obtain ⟨rfl, rfl⟩ := h
    exact ⟨mem_maskToVector.1 ha, rfl⟩
  · rintro ⟨h, rfl⟩
    exact ⟨q, mem_maskToVector.2 h, rfl⟩

open Classical in
theorem block_card (g1 g2 : UGate) : (Block g1 g2).card = (maskToVector (blockMask g1 g2)).length := by
  rw [← List.toFinset_card_of_nodup (maskToVector_nodup _)]
  congr 1
  ext q
  have hc : (commonControls g2.operands g1.operands).getLsbD q = true ↔
      ∃ b, (q, b) ∈ g1.controlQubitList.zip g1.controlValueList ∧ (q, b) ∈ g2.controlQubitList.zip g2.controlValueList := by
    show _ ↔ ∃ b, (q, b) ∈ (maskToVector g1.operands.c).zip (maskToVector2 g1.operands.c g1.operands.v) ∧
      (q, b) ∈ (maskToVector g2.operands.c).zip (maskToVector2 g2.operands.c g2.operands.v)
    simp only [mem_ctrl]
    unfold commonControls
    rw [BitVec.getLsbD_and, BitVec.getLsbD_and, BitVec.getLsbD_not, BitVec.getLsbD_xor]
    simp only [Bool.and_eq_true, decide_eq_true_eq, Bool.not_eq_true']
    constructor
    · rintro ⟨⟨a, b⟩, -, c⟩
      refine ⟨_, ⟨b, rfl⟩, a, ?_⟩
      cases h1 : g1.operands.v.getLsbD q <;> cases h2 : g2.operands.v.getLsbD q <;> simp_all
    · rintro ⟨b, ⟨h1, rfl⟩, h2, h3⟩
      refine ⟨⟨h2, h1⟩, BitVec.lt_of_getLsbD h1, ?_⟩
      cases h4 : g1.operands.v.getLsbD q <;> cases h5 : g2.operands.v.getLsbD q <;> simp_all
  have hb : (blockMask g1 g2).getLsbD q = true ↔ (UGate.uses g1 q ∨ UGate.uses g2 q) ∧ ¬ (commonControls g2.operands g1.operands).getLsbD q = true := by
    unfold blockMask UGate.uses
    rw [BitVec.getLsbD_and, BitVec.getLsbD_or, BitVec.getLsbD_not, Bool.and_eq_true, Bool.or_eq_true, Bool.and_eq_true]
    constructor
    · rintro ⟨a, -, b⟩; exact ⟨a, by simpa using b⟩
    · rintro ⟨a, b⟩
      refine ⟨a, ?_, by simpa using b⟩
      rcases a with a | a <;> simpa using BitVec.lt_of_getLsbD a
  unfold Block
  rw [Finset.mem_filter, List.mem_toFinset, List.mem_append, List.mem_toFinset, ← hc, mem_operandList, mem_operandList, mem_maskToVector, hb]

theorem pauliPair_iff {g1 g2 : UGate} (h1 : Valid g1) (h2 : Valid g2) : PauliPair g1 g2 ↔
    (g2.operands.c = g1.operands.c ∧ g2.operands.v = g1.operands.v ∧ isPauli g2 = true ∧ isPauli g1 = true) := by
  unfold PauliPair
  rw [← isPauli_iff, ← isPauli_iff]
  constructor
  · rintro ⟨a, b, c, d⟩
    have hc := mask_inj (show maskToVector g1.operands.c = maskToVector g2.operands.c from c)
    have e1 := vectorToMask2_self (valid_operandsOK h1)
    have e2 := vectorToMask2_self (valid_operandsOK h2)
    have d : maskToVector2 g1.operands.c g1.operands.v = maskToVector2 g2.operands.c g2.operands.v := d
    rw [d, hc, e2] at e1
    exact ⟨hc.symm, Except.ok.inj e1, b, a⟩
  · rintro ⟨a, b, c, d⟩
    refine ⟨d, c, ?_, ?_⟩
    · unfold UGate.controlQubitList; rw [a]
    · unfold UGate.controlValueList; rw [a, b]

theorem mergeable_of {g : UGate} {q : Nat} (hv : Valid g) (h : UGate.uses g q) : Mergeable g := by
  unfold UGate.uses at h
  constructor
  · rintro rfl
    simp [UGate.operands] at h
  · rintro φ o rfl h0
    have ht : o.t = 0 := hv.2
    have h : (o.t ||| o.c).getLsbD q = true := h
    rw [ht, h0] at h
    simp at h

/-- **C102, gates that do not fit.** Two unconditional gates that share a qubit stay as they are, in the same order, if their qubits - not
counting shared controls - are more than `mb` and they are not two Pauli gates with the same controls. -/
theorem C102_kept {ls : List Line} {g1 g2 : UGate} {n mb : Nat} (h : CircuitOf ls ⟨[.inl (.det g1), .inl (.det g2)], [none, none]⟩ n)
    (hs : ∃ q, q ∈ g1.operandQubitList ∧ q ∈ g2.operandQubitList) (hbig : mb < (Block g1 g2).card) (hp : ¬ PauliPair g1 g2) :
    Circuit.optimize ⟨[.inl (.det g1), .inl (.det g2)], [none, none]⟩ mb = .ok (⟨[.inl (.det g1), .inl (.det g2)], [none, none]⟩, []) := by
  have hv := entry_valid h
  obtain ⟨v1, r1⟩ := hv g1 (by simp)
  obtain ⟨v2, r2⟩ := hv g2 (by simp)
  obtain ⟨q, a, b⟩ := hs
  rw [mem_operandList] at a b
  rw [block_card] at hbig
  rw [pauliPair_iff v1 v2] at hp
  obtain ⟨s, s', e1, e2, e3, e4, e5⟩ := pair_kept (mergeable_of v1 a) (mergeable_of v2 b) v1 v2 r1 r2 ⟨q, a, b⟩ hbig hp
  unfold Circuit.optimize
  rw [optLoop_eq rfl]
  show (do
    let s ← ([(none, .inl (.det g1)), (none, .inl (.det g2))] : List (Option Condition × Item)).foldlM (stepPair mb) ⟨[], [], 0, [], List.replicate _ none, []⟩
    let s ← s.finish
    pure ((⟨s.gates, s.conds⟩ : Circuit), s.log) : Res (Circuit × List (UGate × UGate))) = _
  rw [e1, ok_bind, e2, ok_bind, e3, e4, e5]
  rfl

/-- **C102, gates that fit.** Two unconditional gates that share a qubit become the gate `merge_gate` returns for them, followed by the global phase
it returns if that is above `1e-12`, if their qubits - not counting shared controls - are at most `mb` or they are two Pauli gates with the
same controls, and the merged gate acts on all their qubits (C40 is about the others). -/
theorem C102_merged {ls : List Line} {g1 g2 m : UGate} {φ : ℝ} {n mb : Nat} (h : CircuitOf ls ⟨[.inl (.det g1), .inl (.det g2)], [none, none]⟩ n)
    (hn : n < 64) (hs : ∃ q, q ∈ g1.operandQubitList ∧ q ∈ g2.operandQubitList) (hsmall : (Block g1 g2).card ≤ mb ∨ PauliPair g1 g2)
    (hm : mergeGate g1 g2 = .ok (m, φ)) (hk : MergeKeepsQubits (g1, g2)) :
    ∃ C', Circuit.optimize ⟨[.inl (.det g1), .inl (.det g2)], [none, none]⟩ mb = .ok (C', [(g1, g2)]) ∧
      (|φ| ≤ 1e-12 → C' = ⟨[.inl (.det m)], [none]⟩) ∧
      (1e-12 < |φ| → C' = ⟨[.inl (.det m), .inl (.det (.globalPhase φ ⟨0, 0, 0⟩))], [none, none]⟩) := by
  have hv := entry_valid h
  obtain ⟨v1, r1⟩ := hv g1 (by simp)
  obtain ⟨v2, r2⟩ := hv g2 (by simp)
  obtain ⟨q, a, b⟩ := hs
  rw [mem_operandList] at a b
  rw [block_card, pauliPair_iff v1 v2] at hsmall
  obtain ⟨s, s', e1, e2, e3, e4, e5⟩ := pair_merged (mergeable_of v1 a) (mergeable_of v2 b) v1 v2
    (lt_of_le_of_lt (requiredQubits_spec h).1 hn) r1 r2 ⟨q, a, b⟩ hsmall hm
    (fun q hq => mem_operandList.1 (hk m φ hm q (.inl (mem_operandList.2 hq)))) (fun q hq => mem_operandList.1 (hk m φ hm q (.inr (mem_operandList.2 hq))))
  refine ⟨⟨s'.gates, s'.conds⟩, ?_, fun hφ => ?_, fun hφ => ?_⟩
  · unfold Circuit.optimize
    rw [optLoop_eq rfl]
    show (do
      let s ← ([(none, .inl (.det g1)), (none, .inl (.det g2))] : List (Option Condition × Item)).foldlM (stepPair mb) ⟨[], [], 0, [], List.replicate _ none, []⟩
      let s ← s.finish
      pure ((⟨s.gates, s.conds⟩ : Circuit), s.log) : Res (Circuit × List (UGate × UGate))) = _
    rw [e1, ok_bind, e2, ok_bind, e3]
    rfl
  · rw [(e4 hφ).1, (e4 hφ).2]
  · rw [(e5 hφ).1, (e5 hφ).2]

/-! ## a concrete circuit: H(0), H(0) -/

theorem ops_H : (UGate.one .H ⟨1, 0, 0⟩).operandQubitList = [0] := by
  show maskToVector ((1 : U64) ||| 0) = [0]
  exact mask_one

theorem block_HH : (Block (.one .H ⟨1, 0, 0⟩) (.one .H ⟨1, 0, 0⟩)).card = 1 := by
  rw [block_card, show blockMask (.one .H ⟨1, 0, 0⟩) (.one .H ⟨1, 0, 0⟩) = ((1 : U64) ||| 0) from rfl]
  exact congrArg List.length ops_H

theorem merge_HH_dense : ∃ m, mergeGate (.one .H ⟨1, 0, 0⟩) (.one .H ⟨1, 0, 0⟩) = .ok (m, 0) ∧
    MergeKeepsQubits (.one .H ⟨1, 0, 0⟩, .one .H ⟨1, 0, 0⟩) := by
  have hv : Valid (.one .H ⟨1, 0, 0⟩) := (entry_valid (two_gates .H .H) _ (by simp)).1
  obtain ⟨g, hg, -, hk⟩ := mergeDense_spec hv hv ⟨1, by norm_num, fun q hq => by
    have : q ∈ (UGate.one .H ⟨1, 0, 0⟩).operandQubitList := mem_operandList.2 (hq.elim id id)
    rw [ops_H] at this
    simp at this
    omega⟩
  have hm : mergeGate (.one .H ⟨1, 0, 0⟩) (.one .H ⟨1, 0, 0⟩) = mergeDense (.one .H ⟨1, 0, 0⟩) (.one .H ⟨1, 0, 0⟩) := by
    have hrest : mergeGate (.one .H ⟨1, 0, 0⟩) (.one .H ⟨1, 0, 0⟩) = (if ¬ ((0 : U64) = 0 ∧ (0 : U64) = 0) then mergeDense (.one .H ⟨1, 0, 0⟩) (.one .H ⟨1, 0, 0⟩)
        else do
          match ← runStages (.one .H ⟨1, 0, 0⟩) (.one .H ⟨1, 0, 0⟩) mergeStages with
          | some r => pure r
          | none => mergeDense (.one .H ⟨1, 0, 0⟩) (.one .H ⟨1, 0, 0⟩)) := rfl
    rw [hrest, if_neg (by simp)]
    rfl
  refine ⟨g, hm.trans hg, fun g' φ h q hq => ?_⟩
  dsimp only at h hq
  rw [hm, hg] at h
  cases h
  exact mem_operandList.2 (hk q (hq.imp mem_operandList.1 mem_operandList.1))

/-- the hypotheses of `C102_bound` hold for H(0), H(0) and every block size -/
example (mb : Nat) : ∃ C' log, Circuit.optimize ⟨[.inl (.det (.one .H ⟨1, 0, 0⟩)), .inl (.det (.one .H ⟨1, 0, 0⟩))], [none, none]⟩ mb = .ok (C', log) ∧
    ∀ e ∈ C'.conds.zip C'.gates, e = (none, .inl (.det (.one .H ⟨1, 0, 0⟩))) ∨ ∃ g, e = (none, .inl (.det g)) ∧ (IsPauliGate g ∨ g.targetQubitList.length ≤ mb) := by
  obtain ⟨C', log, h⟩ := C40_total (two_gates .H .H) (by norm_num) (by
    intro d hd
    simp only [List.mem_cons, List.not_mem_nil, or_false, Line.mk.injEq, and_true, Instr.gate.injEq, or_self] at hd
    subst hd
    trivial) mb
  exact ⟨C', log, h, fun e he => ((C102_bound (two_gates .H .H) (by norm_num) h).2 e he).imp_left fun h => by simpa using h⟩

/-- with block size 0 they stay -/
example : Circuit.optimize ⟨[.inl (.det (.one .H ⟨1, 0, 0⟩)), .inl (.det (.one .H ⟨1, 0, 0⟩))], [none, none]⟩ 0 =
    .ok (⟨[.inl (.det (.one .H ⟨1, 0, 0⟩)), .inl (.det (.one .H ⟨1, 0, 0⟩))], [none, none]⟩, []) :=
  C102_kept (two_gates .H .H) ⟨0, by rw [ops_H]; simp, by rw [ops_H]; simp⟩ (by rw [block_HH]; norm_num) (fun h => by
    have := h.1
    unfold IsPauliGate at this
    simp at this)

/-- with block size 1 they become one gate -/
example : ∃ m, Circuit.optimize ⟨[.inl (.det (.one .H ⟨1, 0, 0⟩)), .inl (.det (.one .H ⟨1, 0, 0⟩))], [none, none]⟩ 1 =
    .ok (⟨[.inl (.det m)], [none]⟩, [(.one .H ⟨1, 0, 0⟩, .one .H ⟨1, 0, 0⟩)]) := by
  obtain ⟨m, hm, hk⟩ := merge_HH_dense
  obtain ⟨C', h, h1, -⟩ := C102_merged (mb := 1) (two_gates .H .H) (by norm_num) ⟨0, by rw [ops_H]; simp, by rw [ops_H]; simp⟩ (.inl (by rw [block_HH])) hm hk
  rw [h1 (by norm_num)] at h
  exact ⟨m, h⟩

end Verif.Props
