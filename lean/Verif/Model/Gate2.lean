import Verif.Model.Gate1
import Verif.Model.Dense

/-! # Global phase, Swap, ECR and Permutation gates -/

namespace Verif.Model
open Verif
variable {R : Type}

/-- /repo/src/gate/gate_standard.cpp:70-80 `GlobalPhaseGateImpl::update_quantum_state` and
/repo/src/gate/update_ops.hpp:52-63 `global_phase_gate`. -/
noncomputable def globalPhaseUpdate (L B n : Nat) (phase : ℝ) (o : Operands) : Res (Device ℂ) := do
  checkWithinBounds o n
  pure (zeroTarget L n o.c o.v (polar 1 phase) (B * 2 ^ n))

/-- /repo/src/gate/gate_standard.cpp:1244-1262. -/
def swapUpdate (B n : Nat) (o : Operands) : Res (Device ℂ) := do
  checkWithinBounds o n
  pure (.par _ (swapGate o.t o.c o.v (B * 2 ^ n)))

/-- An ECR gate object (/repo/include/scaluq/gate/gate_standard.hpp:1108-1122). -/
structure EcrGate where
  o : Operands
  pc : U64
  pt : U64

/-- /repo/include/scaluq/gate/gate_factory.hpp:300-312 `gate::Ecr`. -/
def mkEcr (physicalControl physicalTarget : Nat) (controls values : List Nat) : Res EcrGate := do
  let o ← mkOperands [physicalTarget, physicalControl] controls values
  let pc ← vectorToMask [physicalControl]
  let pt ← vectorToMask [physicalTarget]
  pure ⟨o, pc, pt⟩

/-- /repo/src/gate/gate_standard.cpp:1335-1345. -/
noncomputable def ecrUpdate (B n : Nat) (g : EcrGate) : Res (Device ℂ) := do
  checkWithinBounds g.o n
  pure (.par _ (ecrGate (⟨0, 1⟩ : ℂ) ⟨0, -1⟩ (inverseSqrt2 : ℂ) g.pt g.pc g.o.c g.o.v (B * 2 ^ n)))

/-- A 4x4 matrix written row by row (`mat << ...`). -/
def fill4 (l : Fin 4 → Fin 4 → R) : DMat R := ⟨4, 4, fun r s => l (Fin.ofNat 4 r) (Fin.ofNat 4 s)⟩

/-- /repo/src/gate/gate_standard.cpp:1232-1236 `SwapGateImpl::get_matrix`. -/
def swapGetMatrix : DMat ℂ := fill4 ![![1, 0, 0, 0], ![0, 0, 1, 0], ![0, 1, 0, 0], ![0, 0, 0, 1]]

/-- /repo/src/gate/gate_standard.cpp:1286-1302 `EcrGateImpl::get_matrix`. -/
noncomputable def ecrGetMatrix (g : EcrGate) : DMat ℂ :=
  let i : ℂ := ⟨0, 1⟩
  let mi : ℂ := ⟨0, -1⟩
  if g.pt.toNat > g.pc.toNat then
    fill4 fun r s => (![![0, 1, 0, i], ![1, 0, mi, 0], ![0, i, 0, 1], ![mi, 0, 1, 0]] r s) / (Real.sqrt 2 : ℂ)
  else if g.pt.toNat < g.pc.toNat then
    fill4 fun r s => (![![0, 0, 1, i], ![0, 0, i, 1], ![1, mi, 0, 0], ![mi, 1, 0, 0]] r s) / (Real.sqrt 2 : ℂ)
  else fill4 fun r s => if r = s then 1 else 0

/-! ## Permutation -/

/-- the `while` loop of /repo/include/scaluq/gate/gate_standard.hpp:1192-1195: `pos = _dst[pos]` until a seen
position is met, recording `(pos, i)`. -/
def cycleLoop (dst : List Nat) (seen : List Bool) (i pos : Nat) (sched : List (Nat × Nat)) :
    Res (List Bool × List (Nat × Nat)) :=
  match dst[pos]? with
  | none => .error (.ub "_dst[pos] out of range")
  | some p =>
    match _h : seen[p]? with
    | none => .error (.ub "seen[pos] out of range")
    | some true => .ok (seen, sched)
    | some false => cycleLoop dst (seen.set p true) i p (sched ++ [(p, i)])
termination_by seen.count false
decreasing_by
  obtain ⟨hp, he⟩ := List.getElem?_eq_some_iff.1 _h
  rw [List.count_set hp]
  simp [he]
  exact he ▸ List.getElem_mem hp

/-- the `for` loop of /repo/include/scaluq/gate/gate_standard.hpp:1187-1196. -/
def scheduleLoop (dst : List Nat) : List Nat → List Bool → List (Nat × Nat) → Res (List (Nat × Nat))
  | [], _, sched => .ok sched
  | i :: is, seen, sched => do
    let s ← elemAt seen i
    if s then scheduleLoop dst is seen sched
    else do
      let (seen, sched) ← cycleLoop dst (seen.set i true) i i sched
      scheduleLoop dst is seen sched

/-- A Permutation gate object. -/
structure PermGate where
  dst : List Nat
  schedule : List (Nat × Nat)
  o : Operands

/-- /repo/include/scaluq/gate/gate_standard.hpp:1179-1197, the constructor. -/
def permCtor (dst : List Nat) : Res PermGate := do
  let mask ← vectorToMask dst
  let o ← gateBase mask 0 0
  let one ← shl1 dst.length
  if mask ≠ one - 1 then
    .error (.throw "PermutationGateImpl: dst_indices must be the permutation of [0, dst_indices.size())")
  else do
    let sched ← scheduleLoop dst (List.range dst.length) (List.replicate dst.length false) []
    pure ⟨dst, sched, o⟩

/-- /repo/include/scaluq/gate/gate_factory.hpp:401-403, the expected mask. -/
def permExpectedMask (nQubits : Nat) : Res U64 :=
  if nQubits = 0 then pure 0 else do
    let one ← shl1 nQubits
    pure (one - 1)

/-- /repo/include/scaluq/gate/gate_factory.hpp:396-410 `gate::Permutation`. -/
def mkPerm (dst : List Nat) : Res PermGate := do
  let nQubits := dst.length
  if nQubits ≥ 64 then
    .error (.throw "gate::Permutation: the size of the qubit system must be less than 64.")
  else do
    let expected ← permExpectedMask nQubits
    let mask ← vectorToMask dst
    if mask ≠ expected then
      .error (.throw "gate::Permutation: dst_indices must be a permutation of 0 to n_qubits - 1.")
    else permCtor dst

/-- /repo/src/gate/update_ops_standard.cpp:314-322: one scheduled swap. -/
def permSwap (src dst : Nat) (dim : Nat) : Pool (Fin (dim >>> 2)) U64 R :=
  let mask := (1#64 <<< src) ||| (1#64 <<< dst)
  parallelFor _ fun it => do
    let basis := insertZero it mask
    swapCells (basis ||| (1#64 <<< src)) (basis ||| (1#64 <<< dst))

/-- /repo/src/gate/update_ops_standard.cpp:307-324 `permutation_gate`. -/
def permKernel (dim : Nat) : List (Nat × Nat) → Device R
  | [] => .skip
  | (src, dst) :: rest => .seq (.par _ (permSwap src dst dim)) (permKernel dim rest)

/-- /repo/src/gate/gate_standard.cpp:1415-1422. -/
def permUpdate (B n : Nat) (g : PermGate) : Res (Device ℂ) := do
  checkWithinBounds g.o n
  pure (permKernel (B * 2 ^ n) g.schedule)

/-- /repo/src/gate/gate_standard.cpp:1385-1388: the destination index of `src`, the loop over `qubit` starting at
`qubit`. -/
def permIndex (src : Nat) : List Nat → Nat → Nat → Nat
  | [], _, acc => acc
  | d :: ds, qubit, acc => permIndex src ds (qubit + 1) (acc ||| (((src >>> qubit) &&& 1) <<< d))

/-- /repo/src/gate/gate_standard.cpp:1379-1392 `PermutationGateImpl::get_matrix`: zero matrix, then for every `src`
(in increasing order) entry `(dst_index, src)` is set to one. -/
def permGetMatrix (dst : List Nat) : DMat ℂ :=
  ⟨2 ^ dst.length, 2 ^ dst.length, fun r s => if r = permIndex s dst 0 0 then 1 else 0⟩

/-- /repo/src/gate/gate_standard.cpp:1394-1400: the loop filling `inv[_dst[i]] = i`. -/
def invertLoop : List Nat → Nat → List Nat → Res (List Nat)
  | [], _, inv => .ok inv
  | d :: ds, i, inv =>
    if d < inv.length then invertLoop ds (i + 1) (inv.set d i) else .error (.ub "inv[_dst[i]] out of range")

/-- /repo/src/gate/gate_standard.cpp:1393-1401 `PermutationGateImpl::get_inverse`. -/
def permInverse (g : PermGate) : Res PermGate := do
  let inv ← invertLoop g.dst 0 (List.replicate g.dst.length 0)
  permCtor inv

end Verif.Model
