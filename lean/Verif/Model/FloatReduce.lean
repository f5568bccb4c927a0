import Verif.Model.Float
import Verif.Model.StateVec
import Verif.Model.Operator

/-!
# Reductions in floating-point arithmetic

In exact arithmetic the order in which `Kokkos::parallel_reduce` adds the contributions of the work items does not matter
(`Verif.Model.Reduce`).  In floating-point arithmetic it does; so here the order is left open: `ReducesTo l r` says that
`r` is one of the numbers obtained by adding up `l` in any order with any partial sums.  As in `Verif.Model.Float` the
arithmetic of the type `F` is not specified.  `Proofs/FloatReduce.lean` proves that for `F = ℝ` these definitions are the
exact models.
-/

namespace Verif.Model
open Verif

/-- `Kokkos::parallel_reduce` with the default reducer `Sum` (e.g. /repo/src/state/state_vector.cpp:112-118): the partial
sums start from the identity `0` (`init`), a work item adds its contribution to the partial sum of its thread or team
(`item`, the `tmp += …` of the functor), partial sums are added in any way (`join`), and the work items are taken in any
order (`perm`). -/
inductive ReducesTo {R : Type} [Zero R] [Add R] : List R → R → Prop
  | init : ReducesTo [] 0
  | item {l a} (x : R) : ReducesTo l a → ReducesTo (x :: l) (a + x)
  | join {l l' a b} : ReducesTo l a → ReducesTo l' b → ReducesTo (l ++ l') (a + b)
  | perm {l l' a} : l.Perm l' → ReducesTo l a → ReducesTo l' a

/-- the possible outcomes of a reduction over the work items `l` with the contributions `f`: a sum, or the fault of one of
the work items (/repo/src/state/state_vector.cpp:112-118). -/
def Reduction {α R : Type} [Zero R] [Add R] (l : List α) (f : α → Res R) : Res R → Prop
  | .ok r => ∃ xs, l.mapM f = .ok xs ∧ ReducesTo xs r
  | .error e => ∃ a ∈ l, f a = .error e

/-- `RangePolicy(0, N)` (/repo/src/state/state_vector.cpp:114) -/
def RangeReduction {R : Type} [Zero R] [Add R] (N : Nat) (f : U64 → Res R) : Res R → Prop :=
  Reduction (List.range N) fun i => f (BitVec.ofNat 64 i)

section
variable {R F : Type} [Cplx R F] [Zero F] [Add F] [Sub F] [Mul F] [Neg F]
variable [Zero R] [One R] [Add R] [Mul R] [Neg R] (lib : FloatLib F)

/-- /repo/include/scaluq/util/utility.hpp:174-177 `squared_norm`. -/
def squaredC (z : R) : F := Cplx.re z * Cplx.re z + Cplx.im z * Cplx.im z

/-- /repo/include/scaluq/type/complex.hpp:128-131 `conj`. -/
def conjC (z : R) : R := Cplx.ofParts (Cplx.re z) (-Cplx.im z)

/-- `squared_norm(_raw[i])` -/
def readSqF (dim : Nat) (ψ : U64 → R) (i : U64) : Res F := do
  let a ← readAt dim ψ i
  pure (squaredC a)

/-- /repo/src/state/state_vector.cpp:109-120 `get_squared_norm`.  (`static_cast<double>` of the result is exact.) -/
def SquaredNormF (n : Nat) (ψ : U64 → R) : Res F → Prop := RangeReduction (2 ^ n) (readSqF (2 ^ n) ψ)

/-- /repo/src/state/state_vector.cpp:129-146 `get_zero_probability`. -/
def ZeroProbabilityF (n q : Nat) (ψ : U64 → R) (r : Res F) : Prop :=
  if q ≥ n then r = .error (.throw "Error: StateVector::get_zero_probability(std::uint64_t): index of target qubit must be smaller than qubit_count")
  else RangeReduction ((2 ^ n) >>> 1) (fun i => readSqF (2 ^ n) ψ (insertZeroAt i q)) r

/-- /repo/src/state/state_vector.cpp:147-190 `get_marginal_probability`. -/
def MarginalProbabilityF (n : Nat) (ψ : U64 → R) (measured : List Nat) (r : Res F) : Prop :=
  if measured.length ≠ n then r = .error (.throw "Error: StateVector::get_marginal_probability(const vector<std::uint64_t>&): the length of measured_values must be equal to qubit_count")
  else match measuredTargets 0 measured with
    | .error e => r = .error e
    | .ok targets => RangeReduction ((2 ^ n) >>> targets.length) (fun i => readSqF (2 ^ n) ψ (insertValues i targets)) r

/-- /repo/src/state/state_vector.cpp:341-348 `inner_product` with /repo/include/scaluq/util/utility.hpp:107-120. -/
def InnerProductF (n n' : Nat) (a b : U64 → R) (r : Res R) : Prop :=
  if 2 ^ n ≠ 2 ^ n' then r = .error (.throw "Error: StateVector::inner_product: dimension mismatch")
  else RangeReduction (2 ^ n) (fun i => do
    let x ← readAt (2 ^ n) a i
    let y ← readAt (2 ^ n') b i
    pure (conjC x * y)) r

/-- /repo/include/scaluq/constant.hpp:112-114 `PHASE_90ROT()[k % 4]`. -/
def phase90F [One F] (k : Nat) : R :=
  (![Cplx.ofParts 1 0, Cplx.ofParts 0 1, Cplx.ofParts (-1) 0, Cplx.ofParts 0 (-1)] : Fin 4 → R) (Fin.ofNat 4 k)

/-- `Complex::operator*(Scalar rhs)`, /repo/include/scaluq/type/complex.hpp:77-89. -/
def timesC (z : R) (a : F) : R := Cplx.ofParts (Cplx.re z * a) (Cplx.im z * a)

/-- the work item of /repo/src/operator/operator.cpp:126-157, as `expItem`; the coefficient is stored as `Complex<Prec>`
(/repo/include/scaluq/operator/pauli_operator.hpp:19). -/
def expItemF [One F] (dim : Nat) (ψ : U64 → R) (p : PauliOp) (i : U64) : Res R :=
  if p.x = 0 then do
    let i1 := i <<< 1
    let a ← readAt dim ψ i1
    let tmp1 : F := Cplx.re (conjC a * a)
    let tmp1 := if oddParity (i1 &&& p.z) then -tmp1 else tmp1
    let i2 := i1 ||| 1
    let b ← readAt dim ψ i2
    let tmp2 : F := Cplx.re (conjC b * b)
    let tmp2 := if oddParity (i2 &&& p.z) then -tmp2 else tmp2
    pure (timesC (castC lib p.coef) (tmp1 + tmp2))
  else do
    let basis0 := insertZeroAt i (pivotOf p.x)
    let basis1 := basis0 ^^^ p.x
    let a ← readAt dim ψ basis0
    let b ← readAt dim ψ basis1
    let tmp : F := Cplx.re (timesC (a * conjC b * phase90F (popcount (p.x &&& p.z))) (lib.cast 2))
    let tmp := if oddParity (basis0 &&& p.z) then -tmp else tmp
    pure (timesC (castC lib p.coef) tmp)

/-- /repo/src/operator/operator.cpp:116-160 `get_expectation_value` (single state). -/
def Op.ExpectationF [One F] (o : Op) (dim : Nat) (ψ : U64 → R) : Res R → Prop :=
  Reduction (termRange o.terms (dim >>> 1)) fun w => expItemF lib dim ψ w.1 (BitVec.ofNat 64 w.2)

end

end Verif.Model
