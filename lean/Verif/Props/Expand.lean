import Verif.Proofs.Expand

/-! # C54: expanded matrices -/

namespace Verif.Props
open Verif Verif.Spec Verif.Model Verif.Proofs
attribute [-simp] BitVec.getLsbD_eq_getElem

/-- the two masks describe the list of controls -/
structure MasksFor (cs : List (Nat × Bool)) (cm cv : U64) : Prop where
  mask : ∀ q, cm.getLsbD q = true ↔ ∃ b, (q, b) ∈ cs
  value : ∀ q b, (q, b) ∈ cs → cv.getLsbD q = b

theorem MasksFor.ctrl {cs : List (Nat × Bool)} {cm cv : U64} (h : MasksFor cs cm cv) (j : U64) :
    CtrlOK cs j ↔ j &&& cm = cv &&& cm := by
  constructor
  · intro hc
    apply U64.ext; intro q _
    rw [BitVec.getLsbD_and, BitVec.getLsbD_and]
    by_cases hq : cm.getLsbD q = true
    · obtain ⟨b, hb⟩ := (h.mask q).1 hq
      rw [hc _ hb, h.value q b hb]
    · simp [hq]
  · rintro he ⟨q, b⟩ hp
    have hq := (h.mask q).2 ⟨b, hp⟩
    have := congrArg (fun x => BitVec.getLsbD x q) he
    simp only [BitVec.getLsbD_and, hq, Bool.and_true] at this
    rw [this]; exact h.value q b hp

/-- **C54.** For every matrix of the size of its targets, every list of controls (given by the two masks, disjoint from the targets)
and every increasing list `ops` of at most 63 qubits that contains them all, `get_expanded_matrix` succeeds, and the matrix it
returns, applied to the qubits `ops` without controls, is the controlled operator. -/
theorem C54_expanded {m : DMat ℂ} {ts ops : List Nat} {cs : List (Nat × Bool)} {cm cv : U64} (hm : MasksFor cs cm cv)
    (hops : ops.Pairwise (· < ·)) (h64 : ∀ q ∈ ops, q < 64) (hlen : ops.length < 64)
    (hts : ts.Nodup) (hsub : ∀ q ∈ ts, q ∈ ops) (hcsub : ∀ p ∈ cs, p.1 ∈ ops) (hdisj : ∀ p ∈ cs, p.1 ∉ ts)
    (hr : m.rows = 2 ^ ts.length) (hc : m.cols = 2 ^ ts.length) :
    ∃ M, getExpandedMatrix m ts cm cv ops = .ok M ∧ M.rows = 2 ^ ops.length ∧ M.cols = 2 ^ ops.length ∧
      ∀ ψ, applyMat ops M.entry [] ψ = applyMat ts m.entry cs ψ := by
  obtain ⟨M, h1, h2, h3, h4⟩ := expand_operator (m := m) (ts := ts) (cm := cm) (ops := ops)
    ⟨⟨hops, h64, hlen⟩, hts, hsub, (by
      intro q hq
      obtain ⟨b, hb⟩ := (hm.mask q).1 hq
      exact hcsub _ hb), (by
      intro q hq
      by_contra hne
      obtain ⟨b, hb⟩ := (hm.mask q).1 (by simpa using hne)
      exact hdisj _ hb hq), hr, hc⟩ cv hm.ctrl
  exact ⟨M, h1, h2, h3, fun ψ => by rw [h4]⟩

/-- a controlled one-qubit matrix enlarged to three qubits: target 5, control 2 with value 0, inside `[2, 3, 5]` -/
example (m : DMat ℂ) (hr : m.rows = 2) (hc : m.cols = 2) : ∃ M, getExpandedMatrix m [5] 4#64 0#64 [2, 3, 5] = .ok M ∧
    ∀ ψ, applyMat [2, 3, 5] M.entry [] ψ = applyMat [5] m.entry [(2, false)] ψ := by
  obtain ⟨M, h, -, -, h'⟩ := C54_expanded (m := m) (ts := [5]) (ops := [2, 3, 5]) (cs := [(2, false)]) (cm := 4#64) (cv := 0#64)
    ⟨(by
      intro q
      have h4 : IsBit (4#64) 2 := isBit_ofNat (q := 2) (by omega)
      rw [h4.2]; simp), (by intro q b _; simp at *; simp [*])⟩ (by simp) (by simp) (by simp) (by simp) (by simp) (by simp)
    (by simp) (by simpa using hr) (by simpa using hc)
  exact ⟨M, h, h'⟩

end Verif.Props
