import Verif.Spec.Algebra
import Mathlib.Analysis.SpecialFunctions.Log.Base

/-! # Specification: probabilities of a state vector -/

namespace Verif.Spec
open Verif

/-- the basis index `j` is consistent with the measurement pattern: position `q` of the pattern is 0 or 1 for a measured
qubit and something else for an unmeasured one -/
def Matches (pattern : List Nat) (j : U64) : Prop :=
  ∀ q b, pattern[q]? = some (Bool.toNat b) → j.getLsbD q = b

open Classical in
/-- Born probability of a measurement pattern -/
noncomputable def bornProb (n : Nat) (ψ : U64 → ℂ) (pattern : List Nat) : ℝ :=
  ∑ j ∈ indices (2 ^ n), if Matches pattern j then Complex.normSq (ψ j) else 0

/-- the pattern in which the `i`-th qubit of `ts` has the `i`-th bit of `x`, all other qubits being unmeasured -/
def patternOf (n : Nat) (ts : List Nat) (x : Nat) : List Nat :=
  (List.range n).map fun q => if q ∈ ts then (x.testBit (ts.idxOf q)).toNat else 2

/-- probability that qubit `q` is found in `b` -/
noncomputable def bitProb (n : Nat) (ψ : U64 → ℂ) (q : Nat) (b : Bool) : ℝ :=
  ∑ j ∈ indices (2 ^ n), if j.getLsbD q = b then Complex.normSq (ψ j) else 0

/-- probability that the index found is smaller than `k` -/
noncomputable def cumProb (ψ : U64 → ℂ) (k : Nat) : ℝ :=
  ∑ i ∈ Finset.range k, Complex.normSq (ψ (BitVec.ofNat 64 i))

/-- Shannon entropy (in bits) of the distribution of a full measurement, `0 log 0 = 0` -/
noncomputable def shannon (n : Nat) (ψ : U64 → ℂ) : ℝ :=
  ∑ j ∈ indices (2 ^ n), if Complex.normSq (ψ j) = 0 then 0 else
    Complex.normSq (ψ j) * Real.logb 2 (1 / Complex.normSq (ψ j))

end Verif.Spec
