import Verif.Spec.Noise
import Mathlib.Probability.Independence.Basic
import Mathlib.MeasureTheory.Measure.Lebesgue.Basic

/-! # Specification: averages over the random numbers

A circuit with measurements, random choices and classical conditions turns a pure state into a mixture.  The mixture is described by
its branches: states that are not normalised, each with the contents of the classical register; the squared norm of a branch is the
probability with which it occurs. -/

namespace Verif.Spec
open Verif Verif.Model MeasureTheory ProbabilityTheory

/-- a state (not normalised) together with the contents of the register -/
structure Branch where
  psi : BitVec 64 → ℂ
  reg : List Bool

/-- the projection on the states in which qubit `q` is `b`, followed by setting the qubit to 0 if `reset` -/
def measured (q : Nat) (b reset : Bool) (φ : BitVec 64 → ℂ) (j : BitVec 64) : ℂ :=
  if reset then (if j.getLsbD q = false then φ (setBit j q b) else 0) else (if j.getLsbD q = b then φ j else 0)

/-- the branches an instruction makes of one branch: one per alternative, weighted with the square root of its probability; one per
outcome of a measurement -/
noncomputable def Instr.split (n : Nat) (θ : String → Option ℝ) (i : Instr) (s : Branch) : List Branch :=
  match i with
  | .measure q cbit reset => [false, true].map fun b => ⟨onState (2 ^ n) (measured q b reset) s.psi, s.reg.set cbit b⟩
  | i => (i.weights.zip (i.alternatives θ)).map fun pd =>
      ⟨fun j => (Real.sqrt pd.1 : ℂ) * onState (2 ^ n) (operatorOf pd.2) s.psi j, s.reg⟩

/-- the same for a line, which acts only on the branches in which its condition holds -/
noncomputable def Line.split (n : Nat) (θ : String → Option ℝ) (l : Line) (s : Branch) : List Branch :=
  match l.cond with
  | none => l.instr.split n θ s
  | some f => match f s.reg with
    | .ok true => l.instr.split n θ s
    | .ok false => [s]
    | .error _ => []

/-- the branches at the end of a list of lines -/
noncomputable def branches (n : Nat) (θ : String → Option ℝ) : List Line → Branch → List Branch
  | [], s => [s]
  | l :: ls, s => (l.split n θ s).flatMap (branches n θ ls)

/-- the element `(i, j)` of the density matrix of the branches in which the register holds `r` -/
noncomputable def density (bs : List Branch) (r : List Bool) (i j : BitVec 64) : ℂ :=
  (bs.map fun b => if b.reg = r then b.psi i * (starRingEnd ℂ) (b.psi j) else 0).sum

/-- the probability that the register holds `r` -/
noncomputable def registerProb (n : Nat) (bs : List Branch) (r : List Bool) : ℝ :=
  (bs.map fun b => if b.reg = r then normSq (2 ^ n) b.psi else 0).sum

/-- independent random numbers, uniformly distributed between 0 and 1 -/
structure UniformDraws {Ω ι : Type*} [MeasurableSpace Ω] (μ : Measure Ω) (rnd : ι → Ω → ℝ) : Prop where
  meas : ∀ i, Measurable (rnd i)
  indep : iIndepFun rnd μ
  law : ∀ i, μ.map (rnd i) = volume.restrict (Set.Ico 0 1)

end Verif.Spec
