import Verif.Core.Prog
import Verif.Model.Mask

/-! # Model: `Random::permutation`

/repo/include/scaluq/util/random.hpp.  The engine `std::mt19937_64` is not modelled: `mt k` is its k-th output, any 64-bit number. -/

namespace Verif.Model
open Verif

/-- /repo/include/scaluq/util/random.hpp:34 `int32` -/
def int32 (x : Nat) : Nat := x % (2 ^ 32 - 1)

/-- `std::swap(v[i], v[j])` -/
def swapAt {α : Type} (v : List α) (i j : Nat) : Res (List α) :=
  match v[i]?, v[j]? with
  | some a, some b => .ok ((v.set i b).set j a)
  | _, _ => .error (.ub "vector index out of range")

/-- the loop /repo/include/scaluq/util/random.hpp:39-42 for `i = m-1, …, 0`; `k` numbers have been drawn before -/
def shuffleLoop (mt : Nat → Nat) : Nat → Nat → List Nat → Res (List Nat)
  | 0, _, v => .ok v
  | i + 1, k, v =>
    let j := int32 (mt k) % (i + 1)
    do
      let v ← if i ≠ j then swapAt v i j else pure v
      shuffleLoop mt i (k + 1) v

/-- /repo/include/scaluq/util/random.hpp:36-44 `permutation` -/
def permutation (mt : Nat → Nat) (n : Nat) : Res (List Nat) := shuffleLoop mt n 0 (List.range n)

end Verif.Model
