import Verif.Model.Operator
import Verif.Model.StateVec

/-!
# Ground state solvers

Model of `calculate_default_mu`, `solve_ground_state_by_power_method` and `solve_ground_state_by_arnoldi_method`
(/repo/src/operator/operator.cpp:447-556).  A division by a zero norm (NaN in the code) is a fault, except that a vector of NaN that is
never used again is left out.  `Eigen::ComplexEigenSolver` is a parameter.
-/

namespace Verif.Model
open Verif

/-- /repo/src/operator/operator.cpp:447-460 `calculate_default_mu`. -/
noncomputable def Op.defaultMu (o : Op) : ℝ := (o.terms.map fun p => |p.coef.re|).sum

/-- `mu.value_or(calculate_default_mu())` (/repo/src/operator/operator.cpp:479, 504). -/
noncomputable def Op.muOr (o : Op) (mu : Option ℂ) : ℂ :=
  match mu with
  | none => (o.defaultMu : ℂ)
  | some m => m

/-- `Operator::GroundState` (/repo/include/scaluq/operator/operator.hpp:19-22: `eigenvalue`, `state`). -/
structure GroundState where
  eigenvalue : ℂ
  state : U64 → ℂ

/-- `apply_to_state(state); state.add_state_vector_with_coef(-mu, old)` where `old` holds a copy of the state before
(/repo/src/operator/operator.cpp:484-486 and 511-513): from `ψ` to `χ`. -/
def Op.Shifts (o : Op) (n : Nat) (mu : ℂ) (ψ χ : U64 → ℂ) : Prop :=
  ∃ φ, o.Applies (2 ^ n) ψ φ ∧ AddsWithCoef n n (-mu) φ ψ χ

/-- the loop of the power method (/repo/src/operator/operator.cpp:482-488): the number of iterations left, the state, the outcome. -/
inductive Op.PowerLoop (o : Op) (n : Nat) (mu : ℂ) : Nat → (U64 → ℂ) → Res (U64 → ℂ) → Prop
  | done (ψ : U64 → ℂ) : PowerLoop o n mu 0 ψ (.ok ψ)
  | step (k : Nat) (ψ χ ψ' : U64 → ℂ) (r : Res (U64 → ℂ)) :
      o.Shifts n mu ψ χ → Normalizes n χ ψ' → PowerLoop o n mu k ψ' r → PowerLoop o n mu (k + 1) ψ r
  | nan (k : Nat) (ψ χ : U64 → ℂ) (e : Fault) :
      o.Shifts n mu ψ χ → normalizeDev n χ = .error e → PowerLoop o n mu (k + 1) ψ (.error e)

/-- /repo/src/operator/operator.cpp:462-490 `solve_ground_state_by_power_method` on a state `ψ` of `n` qubits has the outcome `r`. -/
def Op.PowerMethod (o : Op) (n : Nat) (ψ : U64 → ℂ) (iter : Nat) (mu : Option ℂ) (r : Res GroundState) : Prop :=
  if o.terms.length = 0 then
    r = .error (.throw "Operator::solve_ground_state_eigenvalue_by_power_method: At least one PauliOperator is required.")
  else if o.hermitian = false then
    r = .error (.throw "Operator::solve_ground_state_eigenvalue_by_power_method: The operator must be Hermitian.")
  else ∃ s, o.PowerLoop n (o.muOr mu) iter ψ s ∧
    r = (do
      let φ ← s
      let e ← o.expectation (2 ^ n) φ
      pure ⟨e, φ⟩)

/-! ## Arnoldi -/

/-- the loop over `j` (/repo/src/operator/operator.cpp:515-520): basis vectors, state before, the coefficients, state after. -/
inductive GramSchmidt (n : Nat) : List (U64 → ℂ) → (U64 → ℂ) → List ℂ → (U64 → ℂ) → Prop
  | nil (w : U64 → ℂ) : GramSchmidt n [] w [] w
  | cons (v : U64 → ℂ) (vs : List (U64 → ℂ)) (w w' w'' : U64 → ℂ) (c : ℂ) (cs : List ℂ) :
      innerProduct n n v w = .ok c → AddsWithCoef n n (-c) w v w' → GramSchmidt n vs w' cs w'' →
      GramSchmidt n (v :: vs) w (c :: cs) w''

/-- the loop over `i` (/repo/src/operator/operator.cpp:509-528): the number of iterations left, the vectors of `krylov_space_basis`, the
columns of the upper part of `hessenberg_matrix` filled so far; the outcome.  The vector pushed in the last iteration is not used
(`last`, where it would be NaN); NaN in an earlier vector spreads to all later ones and into the matrix (`nan`). -/
inductive Op.ArnoldiLoop (o : Op) (n : Nat) (mu : ℂ) :
    Nat → List (U64 → ℂ) → List (List ℂ) → Res (List (U64 → ℂ) × List (List ℂ)) → Prop
  | done (vs : List (U64 → ℂ)) (cols : List (List ℂ)) : ArnoldiLoop o n mu 0 vs cols (.ok (vs, cols))
  | step (k : Nat) (vs : List (U64 → ℂ)) (v χ w w' : U64 → ℂ) (cs : List ℂ) (sq : ℝ) (cols : List (List ℂ))
      (r : Res (List (U64 → ℂ) × List (List ℂ))) :
      vs.getLast? = some v → o.Shifts n mu v χ → GramSchmidt n vs χ cs w → squaredNorm n w = .ok sq → Real.sqrt sq ≠ 0 →
      DRuns (2 ^ n) (multiplyCoef 1 n (1 / (Real.sqrt sq : ℂ))) w w' →
      ArnoldiLoop o n mu k (vs ++ [w']) (cols ++ [cs ++ if k = 0 then [] else [(Real.sqrt sq : ℂ)]]) r →
      ArnoldiLoop o n mu (k + 1) vs cols r
  | last (vs : List (U64 → ℂ)) (v χ w : U64 → ℂ) (cs : List ℂ) (sq : ℝ) (cols : List (List ℂ)) :
      vs.getLast? = some v → o.Shifts n mu v χ → GramSchmidt n vs χ cs w → squaredNorm n w = .ok sq → Real.sqrt sq = 0 →
      ArnoldiLoop o n mu 1 vs cols (.ok (vs, cols ++ [cs]))
  | nan (k : Nat) (vs : List (U64 → ℂ)) (v χ w : U64 → ℂ) (cs : List ℂ) (sq : ℝ) (cols : List (List ℂ)) :
      vs.getLast? = some v → o.Shifts n mu v χ → GramSchmidt n vs χ cs w → squaredNorm n w = .ok sq → Real.sqrt sq = 0 →
      ArnoldiLoop o n mu (k + 2) vs cols (.error (.ub "division by zero"))

/-- `hessenberg_matrix(j, i)`: `ComplexMatrix::Zero` with the columns stored by the loop -/
def hessenberg (cols : List (List ℂ)) (j i : Nat) : ℂ :=
  match cols[i]? with
  | none => 0
  | some col => match col[j]? with
    | none => 0
    | some x => x

/-- `Eigen::ComplexEigenSolver`: for a square matrix of the given size the eigenvalues and the matrix whose columns are the eigenvectors,
or nothing if it does not converge -/
abbrev EigenSolver := Nat → (Nat → Nat → ℂ) → Option (List ℂ × (Nat → Nat → ℂ))

/-- position of the first element with the least real part (`std::ranges::min_element`, /repo/src/operator/operator.cpp:542-546); `best` is the
position and value found so far, `i` the position of the next element -/
noncomputable def minLoop : Nat × ℂ → Nat → List ℂ → Nat
  | best, _, [] => best.1
  | best, i, x :: xs => if x.re < best.2.re then minLoop (i, x) (i + 1) xs else minLoop best (i + 1) xs

/-- the loop adding `eigenvectors(i, minimum)` times basis vector `i` (/repo/src/operator/operator.cpp:549-552) -/
inductive Combine (n : Nat) : List (U64 → ℂ) → List ℂ → (U64 → ℂ) → (U64 → ℂ) → Prop
  | nil (vs : List (U64 → ℂ)) (g : U64 → ℂ) : Combine n vs [] g g
  | cons (v : U64 → ℂ) (vs : List (U64 → ℂ)) (a : ℂ) (as : List ℂ) (g g' g'' : U64 → ℂ) :
      AddsWithCoef n n a g v g' → Combine n vs as g' g'' → Combine n (v :: vs) (a :: as) g g''

/-- /repo/src/operator/operator.cpp:492-556 `solve_ground_state_by_arnoldi_method` on a state `ψ` of `n` qubits has the outcome `r`; `junk` is
what the memory of the new state contains before `set_zero_norm_state`.  Without iterations `eigenvalues[0]` of no eigenvalues is read. -/
inductive Op.ArnoldiMethod (o : Op) (solver : EigenSolver) (n : Nat) (ψ : U64 → ℂ) (iter : Nat) (mu : Option ℂ) : Res GroundState → Prop
  | noTerms : o.terms.length = 0 → ArnoldiMethod o solver n ψ iter mu
      (.error (.throw "Operator::solve_ground_state_eigenvalue_by_power_method: At least one PauliOperator is required."))
  | nan (e : Fault) : o.terms.length ≠ 0 → o.ArnoldiLoop n (o.muOr mu) iter [ψ] [] (.error e) → ArnoldiMethod o solver n ψ iter mu (.error e)
  | noConvergence (vs : List (U64 → ℂ)) (cols : List (List ℂ)) : o.terms.length ≠ 0 → o.ArnoldiLoop n (o.muOr mu) iter [ψ] [] (.ok (vs, cols)) →
      solver iter (hessenberg cols) = none → ArnoldiMethod o solver n ψ iter mu
      (.error (.throw "Operator::solve_ground_state_eigenvalue_by_arnoldi_method: Eigenvalue solver did not converge. Please specify smaller iter_count."))
  | noEigenvalue (vs : List (U64 → ℂ)) (cols : List (List ℂ)) (X : Nat → Nat → ℂ) : o.terms.length ≠ 0 →
      o.ArnoldiLoop n (o.muOr mu) iter [ψ] [] (.ok (vs, cols)) → solver iter (hessenberg cols) = some ([], X) →
      ArnoldiMethod o solver n ψ iter mu (.error (.ub "eigenvalues[0] out of range"))
  | found (vs : List (U64 → ℂ)) (cols : List (List ℂ)) (θ : ℂ) (θs : List ℂ) (X : Nat → Nat → ℂ) (junk g0 g1 g : U64 → ℂ) (value : ℂ) :
      o.terms.length ≠ 0 → o.ArnoldiLoop n (o.muOr mu) iter [ψ] [] (.ok (vs, cols)) →
      solver iter (hessenberg cols) = some (θ :: θs, X) → DRuns (2 ^ n) (setZeroNorm n) junk g0 →
      Combine n vs ((List.range iter).map fun i => X i (minLoop (0, θ) 1 θs)) g0 g1 → Normalizes n g1 g →
      (θ :: θs)[minLoop (0, θ) 1 θs]? = some value →
      ArnoldiMethod o solver n ψ iter mu (.ok ⟨value + o.muOr mu, g⟩)
  | zeroVector (vs : List (U64 → ℂ)) (cols : List (List ℂ)) (θ : ℂ) (θs : List ℂ) (X : Nat → Nat → ℂ) (junk g0 g1 : U64 → ℂ) (e : Fault) :
      o.terms.length ≠ 0 → o.ArnoldiLoop n (o.muOr mu) iter [ψ] [] (.ok (vs, cols)) →
      solver iter (hessenberg cols) = some (θ :: θs, X) → DRuns (2 ^ n) (setZeroNorm n) junk g0 →
      Combine n vs ((List.range iter).map fun i => X i (minLoop (0, θ) 1 θs)) g0 g1 → normalizeDev n g1 = .error e →
      ArnoldiMethod o solver n ψ iter mu (.error e)

end Verif.Model
