import Verif.Model.Json
import Verif.Model.OperatorBatched
import Verif.Model.Density

/-!
# JSON form of operators and states

Model of the `to_json` and `from_json` functions of `Operator`, `OperatorBatched`, `StateVector`, `StateVectorBatched` and `DensityMatrix`.
What the reader of a state leaves in memory is given as the list of the elements of the view in index order; numbers are exact, so the
conversion between the precision of the state and `double` is the identity.  The size of an allocation is not limited.
-/

namespace Verif.Model
open Verif Verif.Spec

/-- `j.size()` -/
def Json.size : Json → Nat
  | .null => 0
  | .arr l => l.length
  | .obj fields => fields.length
  | _ => 1

/-- `j[0]` for a constant `j`: an index outside the array is undefined behaviour -/
def Json.first (j : Json) : Res Json :=
  match j with
  | .arr (x :: _) => .ok x
  | .arr [] => .error (.ub "operator[] const: index out of range")
  | _ => .error (.throw "type_error: cannot use operator[]")

/-! ## operators -/

/-- /repo/include/scaluq/operator/operator.hpp:92-99 -/
def Op.toJson (o : Op) : Res Json := do
  let terms ← o.terms.mapM PauliOp.toJson
  pure (.obj [(t! "terms", .arr terms)])

/-- /repo/include/scaluq/operator/operator.hpp:100-108 -/
noncomputable def Op.ofJson (j : Json) : Res Op := do
  let terms ← j.at (t! "terms")
  let res ← terms.items.mapM fun term => do
    let a ← term.at (t! "pauli_string")
    let s ← a.asText
    let b ← term.at (t! "coef")
    let z ← complexOfJson b
    PauliOp.ofString s z
  pure (Op.ofTerms res)

/-- /repo/include/scaluq/operator/operator_batched.hpp:120-127 -/
def OpB.toJson (o : OpB) : Res Json := do
  let ops ← o.getOperators
  let js ← ops.mapM Op.toJson
  pure (.obj [(t! "Operators", .arr js)])

/-- /repo/include/scaluq/operator/operator_batched.hpp:128-132; `emplace_back(item)` converts the item by `from_json` of `Operator` -/
noncomputable def OpB.ofJson (j : Json) : Res OpB := do
  let items ← j.at (t! "Operators")
  let res ← items.items.mapM Op.ofJson
  pure (OpB.ofOps res)

/-! ## state vectors -/

/-- a `std::vector<StdComplex>` as JSON -/
def complexesToJson (l : List ℂ) : Json := .arr (l.map complexToJson)

/-- `get<std::vector<StdComplex>>()` -/
noncomputable def complexesOfJson (j : Json) : Res (List ℂ) := do
  let l ← j.asArray
  l.mapM complexOfJson

/-- /repo/src/state/state_vector.cpp:100-108 `get_amplitudes` of a state of `n` qubits -/
def getAmplitudes (n : Nat) (ψ : U64 → ℂ) : List ℂ := (List.range (2 ^ n)).map fun i => ψ (BitVec.ofNat 64 i)

/-- a state of `n` qubits whose view holds the elements `amplitudes` -/
structure VecImage where
  n : Nat
  amplitudes : List ℂ

/-- /repo/include/scaluq/state/state_vector.hpp:106-108 -/
def stateToJson (n : Nat) (ψ : U64 → ℂ) : Json :=
  .obj [(t! "n_qubits", .uint n), (t! "amplitudes", complexesToJson (getAmplitudes n ψ))]

/-- the constructor `StateVector(n)`: `1ULL << n` is undefined for `n ≥ 64` (/repo/src/state/state_vector.cpp:9-15,
/repo/src/state/state_vector_batched.cpp:20-28, /repo/src/state/density_matrix.cpp:8-14) -/
def dimOf (n : Nat) : Res Nat := if n < 64 then .ok (2 ^ n) else .error (.ub "shift")

/-- /repo/include/scaluq/state/state_vector.hpp:109-112 with `load` /repo/src/state/state_vector.cpp:279-292 -/
noncomputable def stateOfJson (j : Json) : Res VecImage := do
  let a ← j.at (t! "n_qubits")
  let n ← a.asUInt
  let dim ← dimOf n
  let b ← j.at (t! "amplitudes")
  let l ← complexesOfJson b
  if l.length ≠ dim then .error (.throw "Error: StateVector::load(const vector<ComplexType>&): invalid length of state")
  else .ok ⟨n, l⟩

/-- a batch whose rows hold the elements `rows` -/
structure BatchImage where
  size : Nat
  n : Nat
  rows : List (List ℂ)

/-- /repo/include/scaluq/state/state_vector_batched.hpp:110-114 with `get_amplitudes` /repo/src/state/state_vector_batched.cpp:236-245 -/
def batchToJson (s : Batch) : Json :=
  .obj [(t! "n_qubits", .uint s.n), (t! "batch_size", .uint s.size),
    (t! "amplitudes", .arr ((List.range s.size).map fun b => complexesToJson (getAmplitudes s.n (s.raw b))))]

/-- /repo/include/scaluq/state/state_vector_batched.hpp:115-119 with `load` /repo/src/state/state_vector_batched.cpp:450-472 -/
noncomputable def batchOfJson (j : Json) : Res BatchImage := do
  let a ← j.at (t! "batch_size")
  let size ← a.asUInt
  let a ← j.at (t! "n_qubits")
  let n ← a.asUInt
  let dim ← dimOf n
  let b ← j.at (t! "amplitudes")
  let l ← b.asArray
  let rows ← l.mapM complexesOfJson
  if rows.length ≠ size then .error (.throw "Error: StateVectorBatched::load: invalid batch_size")
  else if ¬ ∀ r ∈ rows, r.length = dim then .error (.throw "Error: StateVectorBatched::load: invalid length of state")
  else .ok ⟨size, n, rows⟩

/-! ## density matrices -/

/-- a matrix as read from JSON; the elements a row does not give stay uninitialised -/
structure ReadMatrix where
  rows : Nat
  cols : Nat
  given : List (List ℂ)

/-- /repo/include/scaluq/types.hpp:119-132: the number of columns is that of the first row; a longer row writes outside the matrix.  A number of
rows or columns that does not fit `int` is a fault. -/
noncomputable def matrixOfJson (j : Json) : Res ReadMatrix := do
  let r₀ ← j.first
  if 2 ^ 31 ≤ j.size ∨ 2 ^ 31 ≤ r₀.size then .error (.ub "int")
  else do
    let given ← j.items.mapM fun row => do
      let l ← row.items.mapM complexOfJson
      if r₀.size < l.length then .error (.ub "Eigen: index out of range") else .ok l
    pure ⟨j.size, r₀.size, given⟩

/-- a density matrix of `n` qubits whose view holds the elements `rows` -/
structure DMImage where
  n : Nat
  hermitian : Bool
  rows : List (List ℂ)

/-- /repo/include/scaluq/state/density_matrix.hpp:95-99 with `get_matrix` /repo/src/state/density_matrix.cpp:76-89 and
/repo/include/scaluq/types.hpp:109-118, whose loop counter of type `int` overflows for a matrix of 2^31 rows -/
def DM.toJson (d : DM) : Res Json :=
  if 2 ^ 31 ≤ 2 ^ d.n then .error (.ub "int")
  else .ok (.obj [(t! "n_qubits", .uint d.n), (t! "is_hermitian", .bool d.hermitian),
    (t! "matrix", matrixToJson ⟨2 ^ d.n, 2 ^ d.n, fun r c => d.raw (BitVec.ofNat 64 r, BitVec.ofNat 64 c)⟩)])

/-- /repo/include/scaluq/state/density_matrix.hpp:100-106 with `load` /repo/src/state/density_matrix.cpp:115-134 -/
noncomputable def DM.ofJson (j : Json) : Res DMImage := do
  let a ← j.at (t! "n_qubits")
  let n ← a.asUInt
  let b ← j.at (t! "is_hermitian")
  let hermitian ← b.asBool
  let c ← j.at (t! "matrix")
  let m ← matrixOfJson c
  let dim ← dimOf n
  if m.rows ≠ dim ∨ m.cols ≠ dim then
    .error (.throw "DensityMatrix::load(const ComplexMatrix&): Input matrix size does not match density matrix size.")
  else if ¬ ∀ r ∈ m.given, r.length = dim then .error (.ub "uninitialised element")
  else .ok ⟨n, hermitian, m.given⟩

end Verif.Model
