import Verif.Model.Merge
import Verif.Proofs.Expand
import Verif.Proofs.GateInverse
import Verif.Proofs.GateBounds

/-! # `merge_gate`: what the result means, and the general case -/

namespace Verif.Proofs
open Verif Verif.Spec Verif.Model
attribute [-simp] BitVec.getLsbD_eq_getElem

/-- qubits a gate object touches -/
def UGate.uses (g : UGate) (q : Nat) : Prop := (g.operands.t ||| g.operands.c).getLsbD q = true

theorem uses_iff {g : UGate} {q : Nat} : UGate.uses g q ↔ q ∈ UGate.ts g ∨ ∃ b, (q, b) ∈ UGate.cs g := by
  unfold UGate.uses UGate.ts UGate.cs
  rw [mem_controls, mem_maskToVector, mem_maskToVector, BitVec.getLsbD_or, Bool.or_eq_true]

/-- `g` with the global phase `φ` is `g1` followed by `g2`, up to a phase `δ` where the controls hold -/
structure Merges (g1 g2 g : UGate) (φ δ : ℝ) : Prop where
  valid : Valid g
  qubits : ∀ q, UGate.uses g q → UGate.uses g1 q ∨ UGate.uses g2 q
  op : ∀ ψ j, opOf g2 (opOf g1 ψ) j = cis φ * (if CtrlOK (UGate.cs g1) j then cis δ * opOf g ψ j else opOf g ψ j)

theorem Merges.exact {g1 g2 g : UGate} {φ : ℝ} (hv : Valid g) (hq : ∀ q, UGate.uses g q → UGate.uses g1 q ∨ UGate.uses g2 q)
    (h : ∀ ψ j, opOf g2 (opOf g1 ψ) j = cis φ * opOf g ψ j) : Merges g1 g2 g φ 0 :=
  ⟨hv, hq, fun ψ j => by rw [h]; split <;> simp [cis_zero]⟩

theorem ctrl_split {o : Operands} {cm cvm t : U64} (hsub : ∀ q, cm.getLsbD q = true → o.c.getLsbD q = true)
    (hv : cvm = cm &&& o.v) (j : U64) :
    CtrlOK (controls o) j ↔ CtrlOK (controls ⟨t, cm, cvm⟩) j ∧ CtrlOK (controls ⟨o.t, o.c &&& ~~~cm, o.v &&& ~~~cm⟩) j := by
  have key : ∀ (o' : Operands) (j : U64), CtrlOK (controls o') j ↔ ∀ q, o'.c.getLsbD q = true → j.getLsbD q = o'.v.getLsbD q := by
    intro o' j
    unfold CtrlOK controls
    simp only [List.mem_map, forall_exists_index, and_imp, mem_maskToVector]
    constructor
    · intro h q hq; exact h _ q hq rfl
    · rintro h p q hq rfl; exact h q hq
  rw [key, key, key]
  subst hv
  constructor
  · intro h
    refine ⟨fun q hq => ?_, fun q hq => ?_⟩
    · rw [h q (hsub q hq), BitVec.getLsbD_and]
      dsimp only at hq
      simp [hq]
    · simp only [BitVec.getLsbD_and, BitVec.getLsbD_not, Bool.and_eq_true, decide_eq_true_eq, Bool.not_eq_true'] at hq ⊢
      rw [h q hq.1]
      simp [hq.2.1, hq.2.2]
  · rintro ⟨h1, h2⟩ q hq
    by_cases hc : cm.getLsbD q = true
    · have := h1 q hc
      simpa [BitVec.getLsbD_and, hc] using this
    · have h64 : q < 64 := by
        by_contra hge
        rw [getLsbD_high _ (by omega)] at hq; cases hq
      have := h2 q (by simp [BitVec.getLsbD_and, BitVec.getLsbD_not, hq, h64, hc])
      simpa [BitVec.getLsbD_and, BitVec.getLsbD_not, hc, h64] using this

/-- one gate on the merged operands -/
theorem expand_gate {g : UGate} (hv : Valid g) {cm cvm opsm : U64} (hsub : ∀ q, cm.getLsbD q = true → g.operands.c.getLsbD q = true)
    (hcv : cvm = cm &&& g.operands.v) (hops : ∀ q, UGate.uses g q → cm.getLsbD q = false → opsm.getLsbD q = true)
    (hlen : (maskToVector opsm).length < 64) :
    ∃ m e, g.getMatrix = .ok m ∧ getExpandedMatrix m g.targetQubitList (g.operands.c &&& ~~~cm) (g.operands.v &&& ~~~cm) (maskToVector opsm) = .ok e ∧
      e.rows = 2 ^ (maskToVector opsm).length ∧ e.cols = 2 ^ (maskToVector opsm).length ∧
      opOf g = applyMat (maskToVector opsm) e.entry (controls ⟨opsm, cm, cvm⟩) := by
  have ho := valid_operandsOK hv
  have hdis : ∀ q, g.operands.t.getLsbD q = true → g.operands.c.getLsbD q = false := by
    intro q hq
    have := congrArg (fun m : U64 => m.getLsbD q) ho.disj
    simp only [BitVec.getLsbD_and, hq] at this
    simpa using this
  have htsub : ∀ q ∈ UGate.ts g, q ∈ maskToVector opsm := by
    intro q hq
    rw [mem_maskToVector]
    refine hops q (uses_iff.2 (.inl hq)) ?_
    by_contra hne
    have h1 := hsub q (by simpa using hne)
    rw [hdis q (mem_maskToVector.1 hq)] at h1; cases h1
  have hfit : TargetsFit g := by
    unfold TargetsFit
    exact lt_of_le_of_lt (List.subperm_of_subset (maskToVector_nodup _) htsub).length_le hlen
  obtain ⟨m, hm, hr, hc, he⟩ := getMatrix_valid hv hfit
  have hok : ExpandOK m g.targetQubitList (g.operands.c &&& ~~~cm) (maskToVector opsm) := by
    refine ⟨⟨maskToVector_sorted _, fun q hq => maskToVector_lt hq, hlen⟩, maskToVector_nodup _, htsub, ?_, ?_, hr, hc⟩
    · intro q hq
      simp only [BitVec.getLsbD_and, BitVec.getLsbD_not, Bool.and_eq_true, decide_eq_true_eq, Bool.not_eq_true'] at hq
      rw [mem_maskToVector]
      refine hops q ?_ hq.2.2
      unfold UGate.uses
      rw [BitVec.getLsbD_or, hq.1, Bool.or_true]
    · intro q hq
      rw [BitVec.getLsbD_and, hdis q (mem_maskToVector.1 hq), Bool.false_and]
  have ho' : OperandsOK ⟨g.operands.t, g.operands.c &&& ~~~cm, g.operands.v &&& ~~~cm⟩ := by
    constructor
    · apply U64.ext; intro q _
      dsimp only
      rw [BitVec.getLsbD_and, BitVec.getLsbD_and, show (0 : U64).getLsbD q = false from BitVec.getLsbD_zero]
      cases ht : g.operands.t.getLsbD q
      · rfl
      · rw [hdis q ht]; rfl
    · intro q hq
      dsimp only at hq ⊢
      rw [BitVec.getLsbD_and, Bool.and_eq_true] at hq ⊢
      exact ⟨ho.sub q hq.1, hq.2⟩
  obtain ⟨e, h1, h2, h3, h4⟩ := expand_operator hok (g.operands.v &&& ~~~cm)
    (cs := controls ⟨g.operands.t, g.operands.c &&& ~~~cm, g.operands.v &&& ~~~cm⟩) (by
      intro j
      rw [← ctrlOK_controls ho' j]
      dsimp only
      have : g.operands.v &&& ~~~cm &&& (g.operands.c &&& ~~~cm) = g.operands.v &&& ~~~cm := by
        apply U64.ext; intro q _
        rw [BitVec.getLsbD_and]
        cases hq : (g.operands.v &&& ~~~cm).getLsbD q
        · rfl
        · have := ho'.sub q hq
          dsimp only at this
          rw [this]; rfl
      rw [this])
  refine ⟨m, e, hm, h1, h2, h3, ?_⟩
  funext ψ j
  unfold opOf
  rw [applyMat_ctrl, applyMat_ctrl _ (controls ⟨opsm, cm, cvm⟩), h4, applyMat_ctrl _ (controls ⟨g.operands.t, g.operands.c &&& ~~~cm, g.operands.v &&& ~~~cm⟩)]
  have hmat : applyMat (UGate.ts g) (matOf g) [] = applyMat g.targetQubitList m.entry [] :=
    applyMat_congr fun r s hr' hs' => (he r s hr' hs').symm
  rw [hmat]
  have hsp := ctrl_split (t := opsm) hsub hcv j
  unfold UGate.cs
  by_cases hC : CtrlOK (controls g.operands) j
  · rw [if_pos hC, if_pos (hsp.1 hC).1, if_pos (hsp.1 hC).2]
  · rw [if_neg hC]
    by_cases h1 : CtrlOK (controls ⟨opsm, cm, cvm⟩) j
    · rw [if_pos h1, if_neg fun h2 => hC (hsp.2 ⟨h1, h2⟩)]
    · rw [if_neg h1]

theorem mergeDense_spec {g1 g2 : UGate} (hv1 : Valid g1) (hv2 : Valid g2)
    (hlen : ∃ n, n < 64 ∧ ∀ q, UGate.uses g1 q ∨ UGate.uses g2 q → q < n) :
    ∃ g, mergeDense g1 g2 = .ok (g, 0) ∧ Merges g1 g2 g 0 0 ∧ ∀ q, UGate.uses g1 q ∨ UGate.uses g2 q → UGate.uses g q := by
  set o1 := g1.operands with ho1
  set o2 := g2.operands with ho2
  set cm := commonControls o1 o2 with hcm
  set cvm := cm &&& o1.v with hcvm
  set opsm := ((o1.t ||| o1.c) ||| (o2.t ||| o2.c)) &&& ~~~cm with hopsm
  have hcmb : ∀ q, cm.getLsbD q = true → o1.c.getLsbD q = true ∧ o2.c.getLsbD q = true ∧ o1.v.getLsbD q = o2.v.getLsbD q := by
    intro q hq
    simp only [hcm, commonControls, BitVec.getLsbD_and, BitVec.getLsbD_not, BitVec.getLsbD_xor, Bool.and_eq_true, decide_eq_true_eq,
      Bool.not_eq_true'] at hq
    obtain ⟨⟨a, b⟩, -, c⟩ := hq
    refine ⟨a, b, ?_⟩
    cases h1 : o1.v.getLsbD q <;> cases h2 : o2.v.getLsbD q <;> simp_all
  have hopsb : ∀ q, opsm.getLsbD q = true ↔ (UGate.uses g1 q ∨ UGate.uses g2 q) ∧ cm.getLsbD q = false := by
    intro q
    unfold UGate.uses
    rw [hopsm, BitVec.getLsbD_and, BitVec.getLsbD_or, BitVec.getLsbD_not, Bool.and_eq_true, Bool.or_eq_true]
    constructor
    · rintro ⟨h1, h2⟩
      rw [Bool.and_eq_true] at h2
      exact ⟨h1, by simpa using h2.2⟩
    · rintro ⟨h1, h2⟩
      refine ⟨h1, ?_⟩
      rw [h2]
      have : q < 64 := by
        by_contra hge
        rcases h1 with h1 | h1 <;> rw [getLsbD_high _ (by omega)] at h1 <;> cases h1
      simp [this]
  have hl : (maskToVector opsm).length < 64 := by
    obtain ⟨n, hn, hq⟩ := hlen
    have : (maskToVector opsm).length ≤ (List.range n).length := by
      apply List.Subperm.length_le
      apply List.subperm_of_subset (maskToVector_nodup _)
      intro q hm
      rw [mem_maskToVector, hopsb] at hm
      exact List.mem_range.2 (hq q hm.1)
    rw [List.length_range] at this
    omega
  obtain ⟨m1, e1, a1, b1, r1, c1, p1⟩ := expand_gate (g := g1) hv1 (cm := cm) (cvm := cvm) (opsm := opsm) (fun q hq => (hcmb q hq).1) hcvm
    (fun q hu hc => (hopsb q).2 ⟨.inl hu, hc⟩) hl
  obtain ⟨m2, e2, a2, b2, r2, c2, p2⟩ := expand_gate (g := g2) hv2 (cm := cm) (cvm := cvm) (opsm := opsm) (fun q hq => (hcmb q hq).2.1) (by
      rw [hcvm]
      apply U64.ext; intro q _
      rw [BitVec.getLsbD_and, BitVec.getLsbD_and]
      cases hq : cm.getLsbD q
      · rfl
      · rw [(hcmb q hq).2.2])
    (fun q hu hc => (hopsb q).2 ⟨.inr hu, hc⟩) hl
  have hO : OperandsOK ⟨opsm, cm, cvm⟩ := by
    constructor
    · apply U64.ext; intro q _
      dsimp only
      rw [BitVec.getLsbD_and, show (0 : U64).getLsbD q = false from BitVec.getLsbD_zero]
      cases hq : opsm.getLsbD q
      · rfl
      · rw [((hopsb q).1 hq).2]; rfl
    · intro q hq
      dsimp only at hq ⊢
      rw [hcvm, BitVec.getLsbD_and, Bool.and_eq_true] at hq
      exact hq.1
  have hself := mkOperands_self hO
  dsimp only at hself
  have hE : e2.mul e1 = .ok ⟨e2.rows, e1.cols, fun r s => ∑ k ∈ Finset.range e2.cols, e2.entry r k * e1.entry k s⟩ := by
    unfold DMat.mul
    rw [if_pos (by rw [c2, r1])]
  set M : DMat ℂ := ⟨e2.rows, e1.cols, fun r s => ∑ k ∈ Finset.range e2.cols, e2.entry r k * e1.entry k s⟩ with hM
  have hres : resizeAndCheckControlValues (maskToVector cm) (maskToVector2 cm cvm) = .ok (maskToVector2 cm cvm) := by
    unfold resizeAndCheckControlValues
    have he := effective_self ⟨opsm, cm, cvm⟩
    unfold effectiveValues at he
    dsimp only at he ⊢
    rw [he, if_neg]
    simp [maskToVector2]
  have hbuild : (GateDesc.dense (maskToVector opsm) M (maskToVector cm) (maskToVector2 cm cvm) false).build =
      .ok (.dense ⟨M, false, ⟨opsm, cm, cvm⟩⟩) := by
    unfold GateDesc.build
    dsimp only
    unfold mkDense
    rw [hres, ok_bind, shl1_ok hl, ok_bind, toNat_one_shl hl, if_neg (by
      push Not
      exact ⟨r2, c1⟩), if_pos (isSorted_of (maskToVector_sorted _)), hself]
    rfl
  refine ⟨_, ?_, Merges.exact (g := .dense ⟨M, false, ⟨opsm, cm, cvm⟩⟩) ?_ ?_ ?_, ?_⟩
  · unfold mergeDense
    dsimp only
    rw [a1, ok_bind, b1, ok_bind, a2, ok_bind, b2, ok_bind, hE, ok_bind, hbuild, ok_bind]
    rfl
  · exact ⟨hO, r2, c1⟩
  · intro q hq
    unfold UGate.uses UGate.operands at hq
    dsimp only at hq
    rw [BitVec.getLsbD_or, Bool.or_eq_true] at hq
    rcases hq with hq | hq
    · exact ((hopsb q).1 hq).1
    · left
      unfold UGate.uses
      rw [BitVec.getLsbD_or, ← ho1, (hcmb q hq).1, Bool.or_true]
  · intro ψ j
    rw [cis_zero, one_mul, p1, p2, applyMat_comp (targetsOK_maskToVector _) (by
      have := valid_ctrlDisj (g := .dense ⟨M, false, ⟨opsm, cm, cvm⟩⟩) ⟨hO, r2, c1⟩
      exact this)]
    unfold opOf
    have : applyMat (maskToVector opsm) (matMul (maskToVector opsm).length e2.entry e1.entry) (controls ⟨opsm, cm, cvm⟩) =
        applyMat (UGate.ts (.dense ⟨M, false, ⟨opsm, cm, cvm⟩⟩)) (matOf (.dense ⟨M, false, ⟨opsm, cm, cvm⟩⟩))
          (UGate.cs (.dense ⟨M, false, ⟨opsm, cm, cvm⟩⟩)) := by
      unfold UGate.ts UGate.cs UGate.operands matOf matMul
      dsimp only
      rw [hM]
      dsimp only
      rw [c2]
    rw [this]
  · intro q hq
    unfold UGate.uses UGate.operands
    dsimp only
    rw [BitVec.getLsbD_or, Bool.or_eq_true]
    by_cases hc : cm.getLsbD q = true
    · exact .inr hc
    · exact .inl ((hopsb q).2 ⟨hq, by simpa using hc⟩)

end Verif.Proofs
