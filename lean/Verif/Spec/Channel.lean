import Verif.Spec.Ensemble

/-! # Specification: the average effect of the noise gates

A noise gate with error rate `p` on qubit `q` acts on the density matrix of the average over many runs as a textbook channel. -/

namespace Verif.Spec
open Verif Verif.Model

/-- elements of a density matrix -/
abbrev Elements := BitVec 64 → BitVec 64 → ℂ

/-- the basis state with qubit `q` inverted -/
def inverted (q : Nat) (j : BitVec 64) : BitVec 64 := setBit j q (!j.getLsbD q)

/-- the bit flip channel: with probability `p` qubit `q` is inverted -/
def bitFlipped (q : Nat) (p : ℝ) (ρ : Elements) : Elements := fun i j =>
  (1 - p : ℂ) * ρ i j + (p : ℂ) * ρ (inverted q i) (inverted q j)

/-- the dephasing channel: coherences between different values of qubit `q` are reduced by `1 - 2p` -/
def dephased (q : Nat) (p : ℝ) (ρ : Elements) : Elements := fun i j =>
  if i.getLsbD q = j.getLsbD q then ρ i j else (1 - 2 * p : ℂ) * ρ i j

/-- qubit `q` replaced by the maximally mixed state -/
noncomputable def replaced (q : Nat) (ρ : Elements) : Elements := fun i j =>
  if i.getLsbD q = j.getLsbD q then (ρ (setBit i q false) (setBit j q false) + ρ (setBit i q true) (setBit j q true)) / 2 else 0

/-- the depolarizing channel: with probability `4p/3` the qubit is replaced by the maximally mixed state -/
noncomputable def depolarized (q : Nat) (p : ℝ) (ρ : Elements) : Elements := fun i j =>
  (1 - 4 * p / 3 : ℂ) * ρ i j + (4 * p / 3 : ℂ) * replaced q ρ i j

/-- the four kinds of noise -/
inductive NoiseKind
  | bitFlip | dephasing | bitFlipAndDephasing | depolarizing

/-- the channel of each kind; bit flip and dephasing errors occur independently of each other -/
noncomputable def NoiseKind.channel (k : NoiseKind) (q : Nat) (p : ℝ) (ρ : Elements) : Elements :=
  match k with
  | .bitFlip => bitFlipped q p ρ
  | .dephasing => dephased q p ρ
  | .bitFlipAndDephasing => bitFlipped q p (dephased q p ρ)
  | .depolarizing => depolarized q p ρ

/-- the error rate that has the effect of `m` noise gates one after another -/
noncomputable def NoiseKind.rate (k : NoiseKind) (p : ℝ) (m : Nat) : ℝ :=
  match k with
  | .depolarizing => 3 / 4 * (1 - (1 - 4 * p / 3) ^ m)
  | _ => (1 - (1 - 2 * p) ^ m) / 2

/-- the factor by which the noise reduces the average of a Pauli observable, depending on its letter on the qubit -/
noncomputable def NoiseKind.damping (k : NoiseKind) (p : ℝ) : Pauli1 → ℝ
  | .I => 1
  | .X => match k with
    | .bitFlip => 1
    | .depolarizing => 1 - 4 * p / 3
    | _ => 1 - 2 * p
  | .Z => match k with
    | .dephasing => 1
    | .depolarizing => 1 - 4 * p / 3
    | _ => 1 - 2 * p
  | .Y => match k with
    | .bitFlipAndDephasing => (1 - 2 * p) ^ 2
    | .depolarizing => 1 - 4 * p / 3
    | _ => 1 - 2 * p

end Verif.Spec
