import Verif.Model.FloatReduce
import Verif.Model.Density

/-!
# Entropies in floating-point arithmetic

`get_computational_basis_entropy` of state vectors, batches and density matrices, with the arithmetic left open as in
`Verif.Model.FloatReduce`.
-/

namespace Verif.Model
open Verif

/-- the further operations of `Float<Prec>` used here: `gt x y` is `x > y`, `log2` is /repo/include/scaluq/util/math.hpp:31-51 (and
91-124) -/
structure EntropyLib (F : Type) where
  gt : F → F → Bool
  log2 : F → F

/-- the real numbers -/
noncomputable def exactEntropyLib : EntropyLib ℝ := ⟨fun x y => decide (x > y), Real.logb 2⟩

/-- a reduction some of whose work items do not touch their partial sum (`if (prob > FloatType{0})`,
/repo/src/state/state_vector.cpp:199-201) -/
def PartialReduction {α R : Type} [Zero R] [Add R] (l : List α) (f : α → Res (Option R)) : Res R → Prop
  | .ok r => ∃ xs, l.mapM f = .ok xs ∧ ReducesTo (xs.filterMap id) r
  | .error e => ∃ a ∈ l, f a = .error e

section
variable {R F : Type} [Cplx R F] [Zero F] [Add F] [Mul F] [Neg F] (lib : FloatLib F) (E : EntropyLib F)

/-- `-prob * internal::log2(prob)` (/repo/src/state/state_vector.cpp:200) -/
def surprise (prob : F) : F := -prob * E.log2 prob

/-- `if (prob > FloatType{0}) lsum += -prob * internal::log2(prob)` (/repo/src/state/state_vector.cpp:199-201) -/
def surpriseIf (prob : F) : Option F := if E.gt prob 0 then some (surprise E prob) else none

/-- /repo/src/state/state_vector.cpp:191-205 `get_computational_basis_entropy` -/
def EntropyF (n : Nat) (ψ : U64 → R) : Res F → Prop :=
  PartialReduction (List.range (2 ^ n)) fun i => do
    let prob : F ← readSqF (2 ^ n) ψ (BitVec.ofNat 64 i)
    pure (surpriseIf E prob)

/-- `static_cast<FloatType>(1e-15)` (/repo/src/state/state_vector_batched.cpp:394).  (`1e-15` is taken to be the exact number, not its
nearest `double`.) -/
noncomputable def epsF : F := lib.cast (1 / 10 ^ 15)

/-- `Kokkos::max(prob, eps)`, that is `prob < eps ? eps : prob` (/repo/src/state/state_vector_batched.cpp:407) -/
noncomputable def clampF (prob : F) : F := if E.gt (epsF lib) prob then epsF lib else prob

/-- one slot of /repo/src/state/state_vector_batched.cpp:391-419 `get_computational_basis_entropy` -/
noncomputable def SlotEntropyF (n : Nat) (ψ : U64 → R) : Res F → Prop :=
  RangeReduction (2 ^ n) fun i => do
    let prob : F ← readSqF (2 ^ n) ψ i
    pure (surprise E (clampF lib E prob))

/-- /repo/src/state/density_matrix.cpp:448-467 `get_computational_basis_entropy` -/
def EntropyMF (n : Nat) (hermitian : Bool) (ρ : U64 × U64 → R) (r : Res F) : Prop :=
  if hermitian = false then r = .error (.throw "DensityMatrix::get_computational_basis_entropy: Computational basis entropy is only defined for hermitian density matrices.")
  else PartialReduction (List.range (2 ^ n)) (fun i =>
    let j := BitVec.ofNat 64 i
    if j.toNat < 2 ^ n then .ok (surpriseIf E (Cplx.re (ρ (j, j)) : F)) else .error (.ub "out of range")) r

end

end Verif.Model
