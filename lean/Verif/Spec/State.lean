import Mathlib.Algebra.BigOperators.Group.Finset.Basic
import Mathlib.Algebra.Ring.Basic
import Mathlib.Order.Interval.Finset.Nat
import Mathlib.Data.Finset.Range

/-!
# Specification: what a gate does to a state vector

Independent of the implementation.  A basis index is a 64-bit word whose bit `q` is the value of qubit `q`;
a state assigns an amplitude to every index.
-/

namespace Verif.Spec

/-- the index that agrees with `j` except that bit `q` has value `b` -/
def setBit (j : BitVec 64) (q : Nat) (b : Bool) : BitVec 64 :=
  if b then j ||| BitVec.ofNat 64 (2 ^ q) else j &&& ~~~ BitVec.ofNat 64 (2 ^ q)

/-- the number whose bit `k` is the value in `j` of the `k`-th listed qubit -/
def getBits (j : BitVec 64) : List Nat → Nat
  | [] => 0
  | q :: qs => (j.getLsbD q).toNat + 2 * getBits j qs

/-- the index `j` with the listed qubits replaced by the bits of `x` (first listed qubit = least significant) -/
def putBits (j : BitVec 64) : List Nat → Nat → BitVec 64
  | [], _ => j
  | q :: qs, x => putBits (setBit j q (x.testBit 0)) qs (x / 2)

/-- the control values a caller means: the given ones, or all ones if none were given -/
def effectiveValues (controls values : List Nat) : List Nat :=
  if values.isEmpty then List.replicate controls.length 1 else values

/-- the list of controls with their required bit values -/
def ctrlList (cs vs : List Nat) : List (Nat × Bool) :=
  (cs.zip (effectiveValues cs vs)).map (fun p => (p.1, p.2 == 1))

/-- the control condition: every listed control qubit has its required value in `j` -/
def CtrlOK (cs : List (Nat × Bool)) (j : BitVec 64) : Prop := ∀ p ∈ cs, j.getLsbD p.1 = p.2

instance (cs : List (Nat × Bool)) (j : BitVec 64) : Decidable (CtrlOK cs j) :=
  inferInstanceAs (Decidable (∀ p ∈ cs, _))

/-- the operator acting as matrix `U` on the listed target qubits (first = least significant bit of the matrix
index) where the controls hold, and as the identity elsewhere -/
def applyMat {R : Type} [AddCommMonoid R] [Mul R] (ts : List Nat) (U : Nat → Nat → R)
    (cs : List (Nat × Bool)) (ψ : BitVec 64 → R) : BitVec 64 → R := fun j =>
  if CtrlOK cs j then
    ∑ x ∈ Finset.range (2 ^ ts.length), U (getBits j ts) x * ψ (putBits j ts x)
  else ψ j

/-- a 2x2 matrix, row by row -/
def mat2 {R : Type} (a b c d : R) : Nat → Nat → R := fun r s =>
  if r = 0 then (if s = 0 then a else b) else (if s = 0 then c else d)

/-- a 4x4 matrix given by its rows -/
def mat4 {R : Type} (f : Fin 4 → Fin 4 → R) : Nat → Nat → R := fun r s =>
  f (Fin.ofNat 4 r) (Fin.ofNat 4 s)

/-- only indices below `dim` belong to the state; everything else stays as it is -/
def onState {R : Type} (dim : Nat) (f : (BitVec 64 → R) → BitVec 64 → R) (ψ : BitVec 64 → R) :
    BitVec 64 → R := fun j => if j.toNat < dim then f ψ j else ψ j

end Verif.Spec
