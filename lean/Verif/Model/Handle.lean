import Verif.Model.RandomGate
import Verif.Spec.Sharing

/-!
# State objects as handles of memory

Model of the memory management of /repo/src/state/state_vector.cpp and /repo/src/state/state_vector_batched.cpp: a
`Kokkos::View` is a place in an allocation; copying a view copies the place.  Word addresses count amplitudes.  Reference counts are
left out: an allocation stays valid as long as somebody can reach it, so it is never released here.  Running out of memory is left out.
-/

namespace Verif.Model
open Verif Verif.Spec

/-- number of the allocation and word inside it -/
abbrev Addr := Nat × Nat

/-- `next` allocations have been made; allocation `k` has `size k` words -/
structure Heap where
  next : Nat
  size : Nat → Nat
  cell : Addr → ℂ

/-- the word exists -/
def Heap.Valid (h : Heap) (a : Addr) : Prop := a.1 < h.next ∧ a.2 < h.size a.1

/-- a `StateVector` (/repo/include/scaluq/state/state_vector.hpp:18-19,31): `_n_qubits`, `_dim` and the place of `_raw` -/
structure SVec where
  n : Nat
  dim : Nat
  buf : Nat
  off : Nat

/-- the address of `_raw(i)` -/
def SVec.addr (v : SVec) (i : Nat) : Addr := (v.buf, v.off + i)

/-- the addresses of the elements of `_raw` -/
def SVec.Mem (v : SVec) (a : Addr) : Prop := ∃ i, i < v.dim ∧ a = v.addr i

/-- a `StateVectorBatched` (/repo/include/scaluq/state/state_vector_batched.hpp:13-29): `_batch_size`, `_n_qubits`, `_dim` and the place
of `_raw` with its row stride -/
structure SBat where
  size : Nat
  n : Nat
  dim : Nat
  buf : Nat
  stride : Nat

/-- the address of `_raw(b, i)` -/
def SBat.addr (X : SBat) (b i : Nat) : Addr := (X.buf, b * X.stride + i)

/-- the addresses of the elements of `_raw` -/
def SBat.Mem (X : SBat) (a : Addr) : Prop := ∃ b i, b < X.size ∧ i < X.dim ∧ a = X.addr b i

/-- a new allocation, not initialised (`Kokkos::ViewAllocateWithoutInitializing`); `junk k` is what allocation `k` happens to contain -/
def Heap.alloc (junk : Nat → Nat → ℂ) (h : Heap) (words : Nat) : Heap :=
  ⟨h.next + 1, Function.update h.size h.next words, fun a => if a.1 = h.next then junk h.next a.2 else h.cell a⟩

/-- /repo/src/state/state_vector.cpp:39-46 `uninitialized_state`, also the allocation in the constructor (9-12) -/
def uninitVec (junk : Nat → Nat → ℂ) (h : Heap) (n : Nat) : Res (Heap × SVec) :=
  if n ≥ 64 then .error (.ub "1ULL << n_qubits") else .ok (h.alloc junk (2 ^ n), ⟨n, 2 ^ n, h.next, 0⟩)

/-- /repo/src/state/state_vector_batched.cpp:10-17 `make_aligned_batched_layout`: the row stride; `ms` is `min_stride`, the number of
amplitudes in 64 bytes -/
def rowStride (ms dim : Nat) : Nat := max dim ms

/-- /repo/src/state/state_vector_batched.cpp:221-232 `uninitialized_state`, also the allocation in the constructor (19-26) -/
def uninitBat (ms : Nat) (junk : Nat → Nat → ℂ) (h : Heap) (B n : Nat) : Res (Heap × SBat) :=
  if n ≥ 64 then .error (.ub "1ULL << n_qubits")
  else .ok (h.alloc junk (B * rowStride ms (2 ^ n)), ⟨B, n, 2 ^ n, h.next, rowStride ms (2 ^ n)⟩)

/-- a kernel that may touch the existing words in `ok` turns `h` into `h'` (`Runs`: under every schedule, without race) -/
def HeapRuns {ι : Type} [DecidableEq ι] (ok : Addr → Prop) (h : Heap) (pool : Pool ι Addr ℂ) (h' : Heap) : Prop :=
  Runs (fun a => h.Valid a ∧ ok a) pool h.cell h'.cell ∧ h'.next = h.next ∧ h'.size = h.size

/-! ## kernels -/

/-- `_raw[i] = f(i)` (/repo/src/state/state_vector.cpp:47-73) -/
def fillVec (v : SVec) (f : Nat → ℂ) : Pool (Fin v.dim) Addr ℂ := fun i => Prog.store (v.addr i) (f i)

/-- `_raw[i] *= coef` (/repo/src/state/state_vector.cpp:216-222) -/
def scaleVec (v : SVec) (a : ℂ) : Pool (Fin v.dim) Addr ℂ := fun i => do
  let x ← Prog.load (v.addr i)
  Prog.store (v.addr i) (x * a)

/-- `Kokkos::deep_copy(v._raw, u._raw)` -/
def copyVecK (v u : SVec) : Pool (Fin v.dim) Addr ℂ := fun i => do
  let x ← Prog.load (u.addr i)
  Prog.store (v.addr i) x

/-- `_raw[i] += coef * state._raw[i]` (/repo/src/state/state_vector.cpp:206-215) -/
def axpyVec (v : SVec) (a : ℂ) (u : SVec) : Pool (Fin v.dim) Addr ℂ := fun i => do
  let x ← Prog.load (v.addr i)
  let y ← Prog.load (u.addr i)
  Prog.store (v.addr i) (x + a * y)

/-- `Kokkos::deep_copy(_raw, host_view)` with the given elements (/repo/src/state/state_vector.cpp:286-291) -/
def loadVecK (v : SVec) (amps : List ℂ) : Pool (Fin v.dim) Addr ℂ := fun i =>
  match amps[i.val]? with
  | some a => Prog.store (v.addr i) a
  | none => Prog.pure ()

/-- `_raw(b, i) = f(i)` (/repo/src/state/state_vector_batched.cpp:92-109) -/
def fillBat (X : SBat) (f : Nat → ℂ) : Pool (Fin X.size × Fin X.dim) Addr ℂ := fun k => Prog.store (X.addr k.1 k.2) (f k.2)

/-- `_raw(batch_id, i) *= coef` (/repo/src/state/state_vector_batched.cpp:437-446) -/
def scaleBat (X : SBat) (a : ℂ) : Pool (Fin X.size × Fin X.dim) Addr ℂ := fun k => do
  let x ← Prog.load (X.addr k.1 k.2)
  Prog.store (X.addr k.1 k.2) (x * a)

/-- `Kokkos::deep_copy(X._raw, Y._raw)` (/repo/src/state/state_vector_batched.cpp:474-497) -/
def copyBatK (X Y : SBat) : Pool (Fin X.size × Fin X.dim) Addr ℂ := fun k => do
  let x ← Prog.load (Y.addr k.1 k.2)
  Prog.store (X.addr k.1 k.2) x

/-- `_raw(batch_id, i) += coef * states._raw(batch_id, i)` (/repo/src/state/state_vector_batched.cpp:419-435) -/
def axpyBat (X : SBat) (a : ℂ) (Y : SBat) : Pool (Fin X.size × Fin X.dim) Addr ℂ := fun k => do
  let x ← Prog.load (X.addr k.1 k.2)
  let y ← Prog.load (Y.addr k.1 k.2)
  Prog.store (X.addr k.1 k.2) (x + a * y)

/-- /repo/src/state/state_vector_batched.cpp:465-471: the elements `states[b][i]` -/
def loadBatK (X : SBat) (amps : List (List ℂ)) : Pool (Fin X.size × Fin X.dim) Addr ℂ := fun k =>
  match amps[k.1.val]? with
  | some row =>
    match row[k.2.val]? with
    | some a => Prog.store (X.addr k.1 k.2) a
    | none => Prog.pure ()
  | none => Prog.pure ()

/-- `_raw(batch_id, i) = state._raw(i)` for all `batch_id` (/repo/src/state/state_vector_batched.cpp:36-43) -/
def spreadBat (X : SBat) (u : SVec) : Pool (Fin X.size × Fin X.dim) Addr ℂ := fun k => do
  let x ← Prog.load (u.addr k.2)
  Prog.store (X.addr k.1 k.2) x

/-- the inner reduction of `get_reduced_state` (/repo/src/state/state_vector_batched.cpp:530-533) -/
def sumLoads (f : Nat → Addr) : Nat → Prog Addr ℂ ℂ
  | 0 => Prog.pure 0
  | B + 1 => do
    let s ← sumLoads f B
    let a ← Prog.load (f B)
    Prog.pure (s + a)

/-- /repo/src/state/state_vector_batched.cpp:520-536: one team per amplitude -/
def reduceBat (v : SVec) (X : SBat) : Pool (Fin v.dim) Addr ℂ := fun i => do
  let s ← sumLoads (fun b => X.addr b i) X.size
  Prog.store (v.addr i) s

/-! ## gates on handles -/

/-- what `at_unsafe(j)` shows (/repo/include/scaluq/state/state_vector.hpp:67-69) -/
def SVec.read (h : Heap) (v : SVec) : U64 → ℂ := fun j => if j.toNat < v.dim then h.cell (v.addr j.toNat) else 0

/-- the memory after `at_unsafe(j)` has become `φ j` for all `j` -/
def SVec.write (h : Heap) (v : SVec) (φ : U64 → ℂ) : Heap :=
  { h with cell := fun a => if a.1 = v.buf ∧ v.off ≤ a.2 ∧ a.2 - v.off < v.dim then φ (BitVec.ofNat 64 (a.2 - v.off)) else h.cell a }

/-- what `at_unsafe(j)` shows (/repo/include/scaluq/state/state_vector_batched.hpp:37-40): the slot is in the upper bits of the index -/
def SBat.read (h : Heap) (X : SBat) : U64 → ℂ := fun j =>
  if j.toNat < X.size * X.dim then h.cell (X.addr (j >>> X.n).toNat (j &&& BitVec.ofNat 64 (X.dim - 1)).toNat) else 0

/-- the memory after `at_unsafe(j)` has become `φ j` for all `j` -/
def SBat.write (h : Heap) (X : SBat) (φ : U64 → ℂ) : Heap :=
  ⟨h.next, h.size, fun a =>
    if a.1 = X.buf ∧ a.2 / X.stride < X.size ∧ a.2 % X.stride < X.dim then
      φ (BitVec.ofNat 64 (a.2 / X.stride * X.dim + a.2 % X.stride))
    else h.cell a⟩

/-! ## commands -/

/-- the objects of a program -/
structure World where
  heap : Heap
  vec : String → Option SVec
  bat : String → Option SBat

/-- no objects -/
def World.empty : World := ⟨⟨0, fun _ => 0, fun _ => 0⟩, fun _ => none, fun _ => none⟩

/-- `gate.update_quantum_state(x)`: kernels that swap buffers (/repo/src/gate/update_ops_matrix.cpp:222-263,266-320) write a new state and
exchange the handles -/
def GateOnVec (L : Nat) (junk : Nat → Nat → ℂ) (w : World) (x : String) (v : SVec) (d : GateDesc) (w' : World) (f : Option Fault) : Prop :=
  match d.build with
  | .error e => w' = w ∧ f = some e
  | .ok g =>
    match g.update L 1 v.n with
    | .error e => w' = w ∧ f = some e
    | .ok dev => ∃ φ, DRuns (1 * 2 ^ v.n) dev (v.read w.heap) φ ∧
        if g.swapsBuffer then
          (match uninitVec junk w.heap v.n with
          | .error e => w' = w ∧ f = some e
          | .ok (h, u) => w' = { w with heap := u.write h φ, vec := Function.update w.vec x (some u) } ∧ f = none)
        else w' = { w with heap := v.write w.heap φ } ∧ f = none

/-- the same for a batch -/
def GateOnBat (L ms : Nat) (junk : Nat → Nat → ℂ) (w : World) (X : String) (v : SBat) (d : GateDesc) (w' : World) (f : Option Fault) : Prop :=
  match d.build with
  | .error e => w' = w ∧ f = some e
  | .ok g =>
    match g.update L v.size v.n with
    | .error e => w' = w ∧ f = some e
    | .ok dev => ∃ φ, DRuns (v.size * 2 ^ v.n) dev (v.read w.heap) φ ∧
        if g.swapsBuffer then
          (match uninitBat ms junk w.heap v.size v.n with
          | .error e => w' = w ∧ f = some e
          | .ok (h, u) => w' = { w with heap := u.write h φ, bat := Function.update w.bat X (some u) } ∧ f = none)
        else w' = { w with heap := v.write w.heap φ } ∧ f = none

/-- a kernel on the present objects -/
def World.Kernel {ι : Type} [DecidableEq ι] (w : World) (ok : Addr → Prop) (pool : Pool ι Addr ℂ) (w' : World) (f : Option Fault) : Prop :=
  ∃ h, HeapRuns ok w.heap pool h ∧ w' = { w with heap := h } ∧ f = none

/-- a new `StateVector` of `n` qubits named `x`, filled by a kernel -/
def World.NewVec (junk : Nat → Nat → ℂ) (w : World) (x : String) (n : Nat) (ok : Addr → Prop) (pool : (v : SVec) → Pool (Fin v.dim) Addr ℂ)
    (w' : World) (f : Option Fault) : Prop :=
  match uninitVec junk w.heap n with
  | .error e => w' = w ∧ f = some e
  | .ok (h, v) => ∃ h', HeapRuns (fun a => v.Mem a ∨ ok a) h (pool v) h' ∧
      w' = { w with heap := h', vec := Function.update w.vec x (some v) } ∧ f = none

/-- a new `StateVectorBatched` named `X`, filled by a kernel -/
def World.NewBat (ms : Nat) (junk : Nat → Nat → ℂ) (w : World) (X : String) (B n : Nat) (ok : Addr → Prop)
    (pool : (v : SBat) → Pool (Fin v.size × Fin v.dim) Addr ℂ) (w' : World) (f : Option Fault) : Prop :=
  match uninitBat ms junk w.heap B n with
  | .error e => w' = w ∧ f = some e
  | .ok (h, v) => ∃ h', HeapRuns (fun a => v.Mem a ∨ ok a) h (pool v) h' ∧
      w' = { w with heap := h', bat := Function.update w.bat X (some v) } ∧ f = none

/-- an exception; nothing has changed -/
def World.Throws (w : World) (msg : String) (w' : World) (f : Option Fault) : Prop := w' = w ∧ f = some (.throw msg)

/-- one command.  Objects that do not exist have no behaviour (such a program would not compile).
`StateVector` and `StateVectorBatched` have defaulted copy operations (/repo/include/scaluq/state/state_vector.hpp:35-37,
/repo/include/scaluq/state/state_vector_batched.hpp:30-33), which copy the handle. -/
def World.Exec (L ms : Nat) (junk : Nat → Nat → ℂ) (w : World) (c : Cmd) (w' : World) (f : Option Fault) : Prop :=
  match c with
  -- /repo/src/state/state_vector.cpp:9-14,47-53
  | .newVec x n => w.NewVec junk x n (fun _ => False) (fun v => fillVec v fun i => if i = 0 then 1 else 0) w' f
  | .shareVec x y => match w.vec y with
    | none => False
    | some u => w' = { w with vec := Function.update w.vec x (some u) } ∧ f = none
  -- /repo/src/state/state_vector.cpp:303-308
  | .copyVec x y => match w.vec y with
    | none => False
    | some u => w.NewVec junk x u.n u.Mem (fun v => copyVecK v u) w' f
  -- /repo/src/state/state_vector.cpp:293-301
  | .loadVec x y => match w.vec x, w.vec y with
    | some v, some u =>
      if u.dim ≠ v.dim then w.Throws "StateVector::load: invalid length of state" w' f
      else w.Kernel (fun a => v.Mem a ∨ u.Mem a) (copyVecK v u) w' f
    | _, _ => False
  -- /repo/src/state/state_vector.cpp:279-292
  | .loadList x amps => match w.vec x with
    | none => False
    | some v =>
      if amps.length ≠ v.dim then w.Throws "StateVector::load: invalid length of state" w' f
      else w.Kernel v.Mem (loadVecK v amps) w' f
  -- /repo/src/state/state_vector.cpp:18-23 (no check)
  | .setAmp x i a => match w.vec x with
    | none => False
    | some v =>
      if i < v.dim then w' = { w with heap := { w.heap with cell := Function.update w.heap.cell (v.addr i) a } } ∧ f = none
      else w' = w ∧ f = some (.ub "subview out of range")
  -- /repo/src/state/state_vector.cpp:58-69
  | .setBasis x k => match w.vec x with
    | none => False
    | some v =>
      if k ≥ v.dim then w.Throws "StateVector::set_computational_basis: index too large" w' f
      else w.Kernel v.Mem (fillVec v fun i => if i = k then 1 else 0) w' f
  -- /repo/src/state/state_vector.cpp:54-57
  | .setZeroNorm x => match w.vec x with
    | none => False
    | some v => w.Kernel v.Mem (fillVec v fun _ => 0) w' f
  -- /repo/src/state/state_vector.cpp:216-222
  | .mulCoef x a => match w.vec x with
    | none => False
    | some v => w.Kernel v.Mem (scaleVec v a) w' f
  -- /repo/src/state/state_vector.cpp:206-215 (no check)
  | .addCoef x a y => match w.vec x, w.vec y with
    | some v, some u => w.Kernel (fun a => v.Mem a ∨ u.Mem a) (axpyVec v a u) w' f
    | _, _ => False
  | .gate x d => match w.vec x with
    | none => False
    | some v => GateOnVec L junk w x v d w' f
  -- /repo/src/state/state_vector_batched.cpp:19-28
  | .newBatch X B n => w.NewBat ms junk X B n (fun _ => False) (fun v => fillBat v fun i => if i = 0 then 1 else 0) w' f
  | .shareBatch X Y => match w.bat Y with
    | none => False
    | some u => w' = { w with bat := Function.update w.bat X (some u) } ∧ f = none
  -- /repo/src/state/state_vector_batched.cpp:492-497
  | .copyBatch X Y => match w.bat Y with
    | none => False
    | some u => w.NewBat ms junk X u.size u.n u.Mem (fun v => copyBatK v u) w' f
  -- /repo/src/state/state_vector_batched.cpp:474-490
  | .loadBatch X Y => match w.bat X, w.bat Y with
    | some v, some u =>
      if u.size ≠ v.size then w.Throws "StateVectorBatched::load: invalid batch_size" w' f
      else if u.dim ≠ v.dim then w.Throws "StateVectorBatched::load: invalid length of state" w' f
      else w.Kernel (fun a => v.Mem a ∨ u.Mem a) (copyBatK v u) w' f
    | _, _ => False
  -- /repo/src/state/state_vector_batched.cpp:448-472
  | .loadLists X amps => match w.bat X with
    | none => False
    | some v =>
      if amps.length ≠ v.size then w.Throws "StateVectorBatched::load: invalid batch_size" w' f
      else if amps.any (fun row => decide (row.length ≠ v.dim)) then w.Throws "StateVectorBatched::load: invalid length of state" w' f
      else w.Kernel v.Mem (loadBatK v amps) w' f
  -- /repo/src/state/state_vector_batched.cpp:91-104
  | .setBasisBatch X k => match w.bat X with
    | none => False
    | some v =>
      if k ≥ v.dim then w.Throws "StateVectorBatched::set_computational_basis: index too large" w' f
      else w.Kernel v.Mem (fillBat v fun i => if i = k then 1 else 0) w' f
  -- /repo/src/state/state_vector_batched.cpp:106-109
  | .setZeroNormBatch X => match w.bat X with
    | none => False
    | some v => w.Kernel v.Mem (fillBat v fun _ => 0) w' f
  -- /repo/src/state/state_vector_batched.cpp:437-446
  | .mulBatch X a => match w.bat X with
    | none => False
    | some v => w.Kernel v.Mem (scaleBat v a) w' f
  -- /repo/src/state/state_vector_batched.cpp:419-435
  | .addBatch X a Y => match w.bat X, w.bat Y with
    | some v, some u =>
      if v.n ≠ u.n ∨ v.size ≠ u.size then w.Throws "StateVectorBatched::add_state_vector: invalid states" w' f
      else w.Kernel (fun a => v.Mem a ∨ u.Mem a) (axpyBat v a u) w' f
    | _, _ => False
  | .gateBatch X d => match w.bat X with
    | none => False
    | some v => GateOnBat L ms junk w X v d w' f
  -- /repo/src/state/state_vector_batched.cpp:30-44
  | .setAll X y => match w.bat X, w.vec y with
    | some v, some u =>
      if v.dim ≠ u.dim then w.Throws "StateVectorBatched::set_state_vector: Dimensions of source and destination views do not match" w' f
      else w.Kernel (fun a => v.Mem a ∨ u.Mem a) (spreadBat v u) w' f
    | _, _ => False
  -- /repo/src/state/state_vector_batched.cpp:46-63: the row `b` of `_raw` is written
  | .setAt X b y => match w.bat X, w.vec y with
    | some v, some u =>
      if b ≥ v.size then w.Throws "StateVectorBatched::set_state_vector_at: batch_id must be smaller than batch_size" w' f
      else if v.dim ≠ u.dim then w.Throws "StateVectorBatched::set_state_vector: Dimensions of source and destination views do not match" w' f
      else w.Kernel (fun a => v.Mem a ∨ u.Mem a) (copyVecK ⟨v.n, v.dim, v.buf, b * v.stride⟩ u) w' f
    | _, _ => False
  -- /repo/src/state/state_vector_batched.cpp:65-75: `Kokkos::subview(_raw, batch_id, Kokkos::ALL())`, the qubit number is recomputed
  -- from the extent (/repo/src/state/state_vector.cpp:16-17)
  | .view x X b => match w.bat X with
    | none => False
    | some v =>
      if b ≥ v.size then w.Throws "StateVectorBatched::view_state_vector_at: batch_id must be smaller than batch_size" w' f
      else w' = { w with vec := Function.update w.vec x (some ⟨Nat.log 2 v.dim, v.dim, v.buf, b * v.stride⟩) } ∧ f = none
  -- /repo/src/state/state_vector_batched.cpp:76-89
  | .getAt x X b => match w.bat X with
    | none => False
    | some v =>
      if b ≥ v.size then w.Throws "StateVectorBatched::get_state_vector_at: batch_id must be smaller than batch_size" w' f
      else w.NewVec junk x v.n v.Mem (fun u => copyVecK u ⟨v.n, v.dim, v.buf, b * v.stride⟩) w' f
  -- /repo/src/state/state_vector_batched.cpp:517-538
  | .reduced x X => match w.bat X with
    | none => False
    | some v => w.NewVec junk x v.n v.Mem (fun u => reduceBat u v) w' f

/-- /repo/src/state/state_vector.cpp:100-107 `get_amplitudes` -/
def SVec.amplitudes (h : Heap) (v : SVec) : List ℂ := (List.range v.dim).map fun i => h.cell (v.addr i)

/-- /repo/src/state/state_vector_batched.cpp:234-244 `get_amplitudes` -/
def SBat.amplitudes (h : Heap) (X : SBat) : List (List ℂ) :=
  (List.range X.size).map fun b => (List.range X.dim).map fun i => h.cell (X.addr b i)

/-- a program; it stops at the first exception -/
inductive World.Run (L ms : Nat) (junk : Nat → Nat → ℂ) : World → List Cmd → World → Option Fault → Prop
  | nil (w : World) : Run L ms junk w [] w none
  | cons (w w1 w2 : World) (c : Cmd) (cs : List Cmd) (f : Option Fault) : w.Exec L ms junk c w1 none → Run L ms junk w1 cs w2 f →
      Run L ms junk w (c :: cs) w2 f
  | stop (w w1 : World) (c : Cmd) (cs : List Cmd) (e : Fault) : w.Exec L ms junk c w1 (some e) → Run L ms junk w (c :: cs) w1 (some e)

end Verif.Model
