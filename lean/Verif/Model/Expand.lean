import Verif.Model.Dense

/-! # Model: `get_expanded_matrix`

/repo/src/base/util/utility.cpp:5-52: the matrix of a gate written as a matrix on a larger ordered set of qubits. -/

namespace Verif.Model
open Verif

/-- `m(i, j)` for reading; outside the matrix it is undefined behaviour -/
def DMat.get {R : Type} (m : DMat R) (i j : Nat) : Res R :=
  if i < m.rows ∧ j < m.cols then .ok (m.entry i j) else .error (.ub "matrix(i, j) out of range")

/-- `m(i, j) = z`; outside the matrix it is undefined behaviour -/
def DMat.set {R : Type} (m : DMat R) (i j : Nat) (z : R) : Res (DMat R) :=
  if i < m.rows ∧ j < m.cols then .ok { m with entry := fun r s => if r = i ∧ s = j then z else m.entry r s }
  else .error (.ub "matrix(i, j) out of range")

/-- `std::ranges::lower_bound(to_operands, x) - to_operands.begin()`: the position of the first element that is not
less than `x`; the range must be sorted. -/
def lowerBound (l : List Nat) (x : Nat) : Res Nat :=
  if isSorted l then .ok (l.findIdx (fun y => decide (¬ y < x))) else .error (.ub "lower_bound on an unsorted range")

/-- `w << s` for a word -/
def shlW (w : U64) (s : Nat) : Res U64 := if s < 64 then .ok (w <<< s) else .error (.ub "shift by >= 64")

/-- /repo/src/base/util/utility.cpp:16-18, the inner loop that builds `idx_map[i]` (`j` counts from `j0`) -/
def expandIndex (i : U64) : List Nat → Nat → U64 → Res U64
  | [], _, acc => .ok acc
  | tm :: tms, j, acc => do
    let b ← shlW ((i >>> j) &&& 1#64) tm
    expandIndex i tms (j + 1) (acc ||| b)

/-- /repo/src/base/util/utility.cpp:20-27: the loop over the set bits of `from_control_mask` (in the order of
`mask_to_vector`), building `to_control_mask` and `to_control_value_mask` -/
def expandControls (ops : List Nat) (cv : U64) : List Nat → U64 × U64 → Res (U64 × U64)
  | [], acc => .ok acc
  | q :: qs, acc => do
    let sll ← lowerBound ops q
    let a ← shl1 sll
    let b ← shlW ((cv >>> q) &&& 1#64) sll
    expandControls ops cv qs (acc.1 ||| a, acc.2 ||| b)

/-- /repo/src/base/util/utility.cpp:38-46, one assignment for `(i, j, o)` -/
def expandWrite {R : Type} (m : DMat R) (idx : List U64) (cv : U64) (acc : DMat R) (w : Nat × Nat × U64) : Res (DMat R) := do
  let r ← elemAt idx w.1
  let s ← elemAt idx w.2.1
  let z ← m.get w.1 w.2.1
  acc.set (r ||| cv ||| w.2.2).toNat (s ||| cv ||| w.2.2).toNat z

/-- the words `0, …, k-1` -/
def words (k : Nat) : List U64 := (List.range k).map (BitVec.ofNat 64)

/-- /repo/src/base/util/utility.cpp:5-52 `get_expanded_matrix`.  `reserve` is kept for its shift; it does not change
the contents. -/
def getExpandedMatrix {R : Type} [Zero R] [One R] (m : DMat R) (ts : List Nat) (cm cv : U64) (ops : List Nat) :
    Res (DMat R) := do
  let tmap ← ts.mapM (lowerBound ops)                                                       -- 10-13
  let k ← shl1 ts.length                                                                   -- 14-19
  let idx ← (words k.toNat).mapM fun i => expandIndex i tmap 0 0
  let c ← expandControls ops cv (maskToVector cm) (0, 0)                                    -- 20-27
  if ops.length < ts.length + popcount cm then .error (.ub "shift by a negative amount") else do
  let _ ← shl1 (ops.length - ts.length - popcount cm)                                       -- 29-31
  let n ← shl1 ops.length
  let outer := (words n.toNat).filter fun i => decide (i &&& c.1 = c.2)                    -- 32-34
  let zero : DMat R := ⟨n.toNat, n.toNat, fun _ _ => 0⟩                                    -- 35-36
  let acc ← ((List.range k.toNat).flatMap fun i => (List.range k.toNat).flatMap fun j =>
    outer.map fun o => (i, j, o)).foldlM (expandWrite m idx c.2) zero                      -- 38-46
  (words n.toNat).foldlM (fun acc i =>
    if i &&& c.1 ≠ c.2 then acc.set i.toNat i.toNat 1 else pure acc) acc                   -- 47-50

end Verif.Model
