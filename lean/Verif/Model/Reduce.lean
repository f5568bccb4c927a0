import Verif.Model.Mask
import Verif.Core.Device
import Mathlib.Algebra.BigOperators.Group.Finset.Basic

/-!
# `parallel_reduce`

`Kokkos::parallel_reduce` with a sum reducer joins the contributions of the work items in an unspecified order;
with exact commutative arithmetic the order does not matter (`reduceSum_perm`), so it is modelled by a loop.
The kernels only read, so there are no races.
-/

namespace Verif.Model
open Verif

/-- reading `_raw[i]` of a state of `dim` amplitudes; outside it is undefined behaviour -/
def readAt {R : Type} (dim : Nat) (ψ : U64 → R) (i : U64) : Res R :=
  if i.toNat < dim then .ok (ψ i) else .error (.ub "_raw index out of range")

/-- sum of the contributions of the listed work items -/
def reduceList {R : Type} [Add R] [Zero R] (l : List Nat) (f : U64 → Res R) : Res R :=
  l.foldlM (fun acc i => do let x ← f (BitVec.ofNat 64 i); pure (acc + x)) 0

/-- `Kokkos::parallel_reduce(RangePolicy(0, N), f, Sum)` (e.g. /repo/src/operator/pauli_operator.cpp:143-153). -/
def reduceSum {R : Type} [Add R] [Zero R] (N : Nat) (f : U64 → Res R) : Res R := reduceList (List.range N) f

theorem reduceList_acc {R : Type} [AddCommMonoid R] (l : List Nat) (f : U64 → Res R) (g : Nat → R)
    (h : ∀ i ∈ l, f (BitVec.ofNat 64 i) = .ok (g i)) (a : R) :
    l.foldlM (fun acc i => do let x ← f (BitVec.ofNat 64 i); pure (acc + x)) a = (.ok (a + (l.map g).sum) : Res R) := by
  induction l generalizing a with
  | nil => simp [pure, Except.pure]
  | cons i l ih =>
    rw [List.foldlM_cons, h i (by simp)]
    show List.foldlM _ (a + g i) l = _
    rw [ih (fun x hx => h x (by simp [hx])), List.map_cons, List.sum_cons, add_assoc]

theorem reduceSum_ok {R : Type} [AddCommMonoid R] {N : Nat} {f : U64 → Res R} {g : Nat → R}
    (h : ∀ i, i < N → f (BitVec.ofNat 64 i) = .ok (g i)) :
    reduceSum N f = .ok (∑ i ∈ Finset.range N, g i) := by
  unfold reduceSum reduceList
  rw [reduceList_acc _ f g (fun i hi => h i (List.mem_range.1 hi)), zero_add]
  rfl

/-- the result does not depend on the order in which the contributions are joined -/
theorem reduceSum_perm {R : Type} [AddCommMonoid R] {N : Nat} {f : U64 → Res R} {g : Nat → R}
    (h : ∀ i, i < N → f (BitVec.ofNat 64 i) = .ok (g i)) (l : List Nat) (hl : l.Perm (List.range N)) :
    reduceList l f = reduceSum N f := by
  unfold reduceSum reduceList
  rw [reduceList_acc _ f g (fun i hi => h i (List.mem_range.1 hi)),
    reduceList_acc _ f g (fun i hi => h i (List.mem_range.1 (hl.mem_iff.1 hi))), (hl.map g).sum_eq]

end Verif.Model
