import Verif.Proofs.Tagged
import Verif.Proofs.Gradient

/-! # The gradient of circuits with tagged gates -/

namespace Verif.Proofs
open Verif Verif.Model Verif.Spec

theorem tgrad_rot_scale {r : RotDesc} {p : PRot} (h : r.build = .ok p) {eps sc : ℝ} {tag : ParamGateType} (hsc : TPGate.scale eps ⟨.rot p, tag⟩ = .ok sc) {L n : Nat} (hL : LanesOK L) (hn : n < 64)
    (hq : ∀ q ∈ qubitsOf (r.at 0), q < n) {θ : String → Option ℝ} {key : String} {t : ℝ} (ht : θ key = some t)
    (s s' : GradState) (f : Option Fault) : TItem.GradStep L n eps θ (.inr (⟨.rot p, tag⟩, key)) s s' f ↔
      s' = ⟨onState (2 ^ n) (opOf (p.inverse.fix t)) s.psi, onState (2 ^ n) (opOf (p.inverse.fix t)) s.bi,
        gradAdd s.grad key (-sc *
          (Spec.inner (2 ^ n) s.bi (onState (2 ^ n) (operatorOf (r.at (-Real.pi / sc))) s.psi)).re)⟩ ∧ f = none := by
  have hb := rot_bounds h hn hq
  have fwd : ∀ t, Valid (p.fix t) ∧ opOf (p.fix t) = operatorOf (r.at t) ∧ (∀ q ∈ UGate.ts (p.fix t), q < n) ∧ ∀ c ∈ UGate.cs (p.fix t), c.1 < n := by
    intro t
    obtain ⟨hv, ho, hs⟩ := build_valid (rot_descOK r t) (rot_build h t)
    obtain ⟨b1, b2⟩ := build_bounds hs (by rw [rot_qubits]; exact hq)
    exact ⟨hv, ho, b1, b2⟩
  have bwd : ∀ ψ ψ' f, (PGate.rot p.inverse).UpdatesState L n t ψ ψ' f ↔
      ψ' = onState (2 ^ n) (opOf (p.inverse.fix t)) ψ ∧ f = none := by
    obtain ⟨hv, -, b1, b2⟩ := fwd t
    obtain ⟨hv', et, ec, -⟩ := inverse_matrix hv (inverseHyp_of (rot_descOK r t) (rot_build h t) (inverse_rot r t)) (prot_inverse_fix p t)
    exact fun ψ ψ' f => prot_updates_iff hv' hL hn (by rw [prot_inverse_operands]; exact hb) (by rw [et]; exact b1) (by rw [ec]; exact b2) ψ ψ' f
  have hA : ∀ ψ ψ' f, (PGate.rot p).UpdatesState L n (-Real.pi / sc) ψ ψ' f ↔
      ψ' = onState (2 ^ n) (operatorOf (r.at (-Real.pi / sc))) ψ ∧ f = none := by
    obtain ⟨hv, ho, b1, b2⟩ := fwd (-Real.pi / sc)
    intro ψ ψ' f
    have := prot_updates_iff hv hL hn hb b1 b2 ψ ψ' f
    rw [ho] at this
    exact this
  have hcon : ∀ s1 f1, TItem.Contributes L n eps (.inr (⟨.rot p, tag⟩, key)) s s1 f1 ↔ s1 = { s with grad := gradAdd s.grad key (-sc *
          (Spec.inner (2 ^ n) s.bi (onState (2 ^ n) (operatorOf (r.at (-Real.pi / sc))) s.psi)).re) } ∧ f1 = none := by
    intro s1 f1
    unfold TItem.Contributes
    dsimp only
    rw [hsc]
    dsimp only
    constructor
    · rintro ⟨A, f2, h1, h2⟩
      obtain ⟨rfl, rfl⟩ := (hA _ _ _).1 h1
      dsimp only at h2
      rw [innerProduct_eq (by omega)] at h2
      exact h2
    · intro h2
      refine ⟨_, none, (hA _ _ _).2 ⟨rfl, rfl⟩, ?_⟩
      dsimp only
      rw [innerProduct_eq (by omega)]
      exact h2
  have hu : ∀ s1, Item.Undone L n θ (.inr (.rot p, key)) s1 s' f ↔ s' = ⟨onState (2 ^ n) (opOf (p.inverse.fix t)) s1.psi,
      onState (2 ^ n) (opOf (p.inverse.fix t)) s1.bi, s1.grad⟩ ∧ f = none := fun s1 => by
    unfold Item.Undone
    dsimp only
    rw [show (PGate.rot p).inverse = .ok (.rot p.inverse) from rfl]
    dsimp only
    rw [ht]
    exact undoesBoth_iff bwd s1 s' f
  unfold TItem.GradStep
  constructor
  · rintro ⟨s1, f1, h1, h2⟩
    obtain ⟨rfl, rfl⟩ := (hcon _ _).1 h1
    exact (hu _).1 h2
  · intro h2
    exact ⟨_, none, (hcon _ _).2 ⟨rfl, rfl⟩, (hu _).2 h2⟩

end Verif.Proofs
