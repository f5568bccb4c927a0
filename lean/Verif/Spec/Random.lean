import Verif.Spec.StateVec

/-! # Specification: measurement and random choice -/

namespace Verif.Spec
open Verif

/-- the state after qubit `q` of the `n`-qubit state `ψ` was found to be `b`: amplitudes that disagree with the outcome vanish and
the others are divided by the square root of the probability of the outcome; with `reset` qubit `q` is afterwards 0 -/
noncomputable def afterMeasurement (n q : Nat) (b reset : Bool) (ψ : U64 → ℂ) (j : U64) : ℂ :=
  if reset then (if j.getLsbD q = false then ψ (setBit j q b) / (Real.sqrt (bitProb n ψ q b) : ℂ) else 0)
  else (if j.getLsbD q = b then ψ j / (Real.sqrt (bitProb n ψ q b) : ℂ) else 0)

mutual
/-- a random choice whose alternatives may again be random choices -/
inductive PTree (G : Type) where
  | leaf (g : G)
  | node (f : PForest G)
/-- alternatives with their probabilities -/
inductive PForest (G : Type) where
  | nil
  | cons (p : ℝ) (t : PTree G) (rest : PForest G)
end

mutual
/-- the final alternatives of a tree of choices, each with the product of the probabilities on the way to it -/
noncomputable def PTree.leaves {G : Type} : PTree G → List (ℝ × G)
  | .leaf g => [(1, g)]
  | .node f => f.leaves
noncomputable def PForest.leaves {G : Type} : PForest G → List (ℝ × G)
  | .nil => []
  | .cons p t rest => t.leaves.map (fun x => (p * x.1, x.2)) ++ rest.leaves
end

/-- sum of the probabilities of the alternatives -/
noncomputable def PForest.total {G : Type} : PForest G → ℝ
  | .nil => 0
  | .cons p _ rest => p + rest.total

mutual
/-- at every node the probabilities lie in `[0, 1]` and add to 1 -/
def PTree.Fair {G : Type} : PTree G → Prop
  | .leaf _ => True
  | .node f => f.total = 1 ∧ f.Fair
def PForest.Fair {G : Type} : PForest G → Prop
  | .nil => True
  | .cons p t rest => 0 ≤ p ∧ p ≤ 1 ∧ t.Fair ∧ rest.Fair
end

end Verif.Spec
