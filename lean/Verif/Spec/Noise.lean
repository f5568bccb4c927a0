import Verif.Spec.Circuit

/-! # Specification: noisy simulation

A shot passes the lines of a circuit in order and takes one concrete alternative at every line.  Its path is the list of the numbers of
the alternatives taken. -/

namespace Verif.Spec
open Verif Verif.Model

/-- the gates an instruction chooses from, for the parameters `θ`; a measurement is not a choice of gates -/
def Instr.alternatives (θ : String → Option ℝ) : Instr → List GateDesc
  | .gate d => [d]
  | .choice _ ds => ds
  | .measure _ _ _ => []
  | .rot r key => match θ key with
    | some t => [r.at t]
    | none => []
  | .pchoice _ ls key => match θ key with
    | some t => ls.map (·.at t)
    | none => []

/-- their weights -/
def Instr.weights : Instr → List ℝ
  | .gate _ => [1]
  | .choice ps _ => ps
  | .measure _ _ _ => []
  | .rot _ _ => [1]
  | .pchoice ps _ _ => ps

/-- the draws for every line are numbers of alternatives with positive weight, as `std::discrete_distribution` delivers them -/
def DrawsFit (ls : List Line) (shots : Nat) (draws : Nat → Nat) : Prop :=
  ∀ k (hk : k < ls.length) t, t < shots → ∃ w, ((ls[k]).instr.weights)[draws (k * shots + t)]? = some w ∧ 0 < w

/-- running the lines with the alternatives of a path turns the first state into the second; conditions play no role -/
inductive Along (n : Nat) (θ : String → Option ℝ) : List Line → List Nat → (BitVec 64 → ℂ) → (BitVec 64 → ℂ) → Prop
  | nil (ψ : BitVec 64 → ℂ) : Along n θ [] [] ψ ψ
  | cons (l : Line) (ls : List Line) (c : Nat) (cs : List Nat) (ψ ψ' : BitVec 64 → ℂ) (hc : c < (l.instr.alternatives θ).length) :
      Along n θ ls cs (onState (2 ^ n) (operatorOf (l.instr.alternatives θ)[c]) ψ) ψ' → Along n θ (l :: ls) (c :: cs) ψ ψ'

/-- the amplitudes of a state of `n` qubits; everything else is zero -/
def restrict (n : Nat) (ψ : BitVec 64 → ℂ) : BitVec 64 → ℂ := fun j => if j.toNat < 2 ^ n then ψ j else 0

/-- `res` reports `shots` shots with these paths: every path that occurs is reported once, with the number of shots that took it and
the state it leads to -/
structure Reports (n : Nat) (θ : String → Option ℝ) (ls : List Line) (ψ : BitVec 64 → ℂ) (paths : List (List Nat))
    (res : List ((BitVec 64 → ℂ) × Int)) : Prop where
  entries : ∃ labels : List (List Nat), labels.Nodup ∧ (∀ p ∈ paths, p ∈ labels) ∧ (paths ≠ [] → ∀ p ∈ labels, p ∈ paths) ∧
    List.Forall₂ (fun p r => Along n θ ls p (restrict n ψ) r.1 ∧ r.2 = (paths.count p : Int)) labels res

/-- every shot takes at line `k` the alternative given by a draw of its own out of the `k`-th block of draws -/
def FromDraws (draws : Nat → Nat) (shots len : Nat) (paths : List (List Nat)) : Prop :=
  (∀ p ∈ paths, p.length = len) ∧
  ∀ k, k < len → (paths.map (·[k]?)).Perm ((List.range shots).map fun t => some (draws (k * shots + t)))

end Verif.Spec
