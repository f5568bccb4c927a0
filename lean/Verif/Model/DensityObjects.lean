import Verif.Model.Density
import Verif.Spec.DensityObjects

/-!
# `DensityMatrix` objects as handles of memory

Model of the memory management of /repo/src/state/density_matrix.cpp: `_raw` is a `Kokkos::View`, so copying an object copies a
reference to the elements, while `_n_qubits`, `_dim` and `_is_hermitian` are copied (/repo/include/scaluq/state/density_matrix.hpp:9-26:
the copy operations are the implicit ones).  Element `(i, j)` of allocation `b` has the address `(b, (i, j))`; how the pair is laid out
in memory is left to Kokkos.  Reference counts are left out (an allocation stays valid as long as somebody can reach it).
State vectors given as arguments are values: their memory is never that of a density matrix.
-/

namespace Verif.Model
open Verif Verif.Spec Prog

/-- number of the allocation, row and column -/
abbrev DAddr := Nat × (U64 × U64)

/-- `next` allocations have been made; allocation `b` is a matrix of `qubits b` qubits -/
structure DHeap where
  next : Nat
  qubits : Nat → Nat
  cell : DAddr → ℂ

/-- the element exists -/
def DHeap.Valid (h : DHeap) (a : DAddr) : Prop := a.1 < h.next ∧ InMat (2 ^ h.qubits a.1) a.2

/-- a `DensityMatrix` (/repo/include/scaluq/state/density_matrix.hpp:9-22): `_n_qubits`, `_is_hermitian` and the place of `_raw` -/
structure DHandle where
  n : Nat
  hermitian : Bool
  buf : Nat

/-- the objects of a program -/
structure DWorld where
  heap : DHeap
  obj : String → Option DHandle

/-- no objects -/
def DWorld.empty : DWorld := ⟨⟨0, fun _ => 0, fun _ => 0⟩, fun _ => none⟩

/-- the object as `Model/Density.lean` sees it -/
def DHandle.view (h : DHeap) (v : DHandle) : DM := ⟨v.n, v.hermitian, fun p => h.cell (v.buf, p)⟩

/-- the elements of one allocation replaced -/
def DHeap.write (h : DHeap) (b : Nat) (raw : U64 × U64 → ℂ) : DHeap :=
  { h with cell := fun a => if a.1 = b then raw a.2 else h.cell a }

/-- a new allocation, not initialised (/repo/src/state/density_matrix.cpp:165-175); `junk b` is what allocation `b` happens to contain -/
def DHeap.alloc (junk : Nat → U64 × U64 → ℂ) (h : DHeap) (n : Nat) : DHeap :=
  ⟨h.next + 1, Function.update h.qubits h.next n, fun a => if a.1 = h.next then junk h.next a.2 else h.cell a⟩

/-- a kernel over the pairs of indices (`MDRangePolicy({0, 0}, {dim, dim})`) on the whole memory -/
def pairPool (dim : Nat) (body : U64 → U64 → Prog DAddr ℂ Unit) : Pool (Fin ((dim * dim) % 2 ^ 64)) DAddr ℂ :=
  parallelFor _ fun g => body (g / BitVec.ofNat 64 dim) (g % BitVec.ofNat 64 dim)

/-- `Kokkos::deep_copy(v._raw, u._raw)` (/repo/src/state/density_matrix.cpp:95, 144) -/
def dCopy (dim v u : Nat) : Pool (Fin ((dim * dim) % 2 ^ 64)) DAddr ℂ := pairPool dim fun i j => do
  let x ← load (u, (i, j))
  store (v, (i, j)) x

/-- `_raw(i, j) += ComplexType(coef) * other._raw(i, j)` (/repo/src/state/density_matrix.cpp:481-487) -/
noncomputable def dAxpy (dim v : Nat) (coef : ℂ) (u : Nat) : Pool (Fin ((dim * dim) % 2 ^ 64)) DAddr ℂ := pairPool dim fun i j => do
  let x ← load (v, (i, j))
  let y ← load (u, (i, j))
  store (v, (i, j)) (x + coef * y)

/-- a kernel turns the memory `h` into `h'` (`Runs`: under every schedule, without race, inside the allocations) -/
def DHeapRuns {ι : Type} [DecidableEq ι] (h : DHeap) (pool : Pool ι DAddr ℂ) (h' : DHeap) : Prop :=
  Runs h.Valid pool h.cell h'.cell ∧ h'.next = h.next ∧ h'.qubits = h.qubits

/-- the member function called by an action -/
noncomputable def dactCall : DAct → Res DMOp
  | .zero => .ok .setZeroState
  | .zeroNorm => .ok .setZeroNormState
  | .basis k => .ok (.setBasis k)
  | .coherence r c z => .ok (.setCoherence r c z)
  | .pair r c z => .ok (.setCoherencePair r c z)
  | .loadState n ψ => .ok (.loadVector n ψ)
  | .loadMatrix rows cols entry claim => .ok (.loadMatrix rows cols entry claim)
  | .force => .ok .forceHermitian
  | .normalize => .ok .normalize
  | .scale a => .ok (.multiplyCoef a)
  | .gate d => do
    let g ← d.build
    pure (.gate g)

/-- the objects after `x` has become `v` and the memory `h` -/
def DWorld.put (w : DWorld) (h : DHeap) (x : String) (v : DHandle) : DWorld := ⟨h, Function.update w.obj x (some v)⟩

/-- a member function of the object `v` named `x`: the kernels work on its allocation -/
def DWorld.Act (w : DWorld) (x : String) (v : DHandle) (op : Res DMOp) (w' : DWorld) (f : Option Fault) : Prop :=
  match op with
  | .error e => w' = w ∧ f = some e
  | .ok op =>
    match op.exec (v.view w.heap) with
    | .error e => w' = w ∧ f = some e
    | .ok u => ∃ raw, MRuns (2 ^ v.n) u.launches (v.view w.heap).raw raw ∧
        w' = w.put (w.heap.write v.buf raw) x ⟨v.n, u.hermitian, v.buf⟩ ∧ f = none

/-- a constructor: allocation, then a member function (/repo/src/state/density_matrix.cpp:6-13 and 23-30) -/
def DWorld.Construct (junk : Nat → U64 × U64 → ℂ) (w : DWorld) (x : String) (n : Nat) (op : DMOp) (w' : DWorld) (f : Option Fault) : Prop :=
  if n ≥ 64 then w' = w ∧ f = some (.ub "1ULL << n_qubits")
  else DWorld.Act ⟨w.heap.alloc junk n, w.obj⟩ x ⟨n, true, w.heap.next⟩ (.ok op) w' f

/-- one command.  Objects that do not exist have no behaviour (such a program would not compile). -/
def DWorld.Exec (junk : Nat → U64 × U64 → ℂ) (w : DWorld) (c : DCmd) (w' : DWorld) (f : Option Fault) : Prop :=
  match c with
  -- /repo/src/state/density_matrix.cpp:6-13
  | .new x n => w.Construct junk x n .setZeroState w' f
  -- /repo/src/state/density_matrix.cpp:23-30
  | .ofState x n ψ => w.Construct junk x n (.loadVector n ψ) w' f
  -- the implicit copy operations
  | .same x y => match w.obj y with
    | none => False
    | some u => w' = w.put w.heap x u ∧ f = none
  -- /repo/src/state/density_matrix.cpp:15-21
  | .wrap x y claim => match w.obj y with
    | none => False
    | some u => w' = w.put w.heap x ⟨u.n, claim, u.buf⟩ ∧ f = none
  -- /repo/src/state/density_matrix.cpp:90-97
  | .copy x y => match w.obj y with
    | none => False
    | some u => ∃ h, DHeapRuns (w.heap.alloc junk u.n) (dCopy (2 ^ u.n) w.heap.next u.buf) h ∧
        w' = w.put h x ⟨u.n, u.hermitian, w.heap.next⟩ ∧ f = none
  -- /repo/src/state/density_matrix.cpp:234-283
  | .ptrace x y qs => match w.obj y with
    | none => False
    | some u => match (u.view w.heap).partialTrace qs with
      | .error e => w' = w ∧ f = some e
      | .ok r => ∃ raw, MRuns (2 ^ r.n) r.launches (junk w.heap.next) raw ∧
          w' = w.put ((w.heap.alloc junk r.n).write w.heap.next raw) x ⟨r.n, r.hermitian, w.heap.next⟩ ∧ f = none
  -- /repo/src/state/density_matrix.cpp:136-145
  | .load x y => match w.obj x, w.obj y with
    | some v, some u =>
      if u.n ≠ v.n then
        w' = w ∧ f = some (.throw "DensityMatrix::load(const DensityMatrix&): Input density matrix size does not match density matrix size.")
      else ∃ h, DHeapRuns w.heap (dCopy (2 ^ v.n) v.buf u.buf) h ∧ w' = w.put h x ⟨v.n, u.hermitian, v.buf⟩ ∧ f = none
    | _, _ => False
  -- /repo/src/state/density_matrix.cpp:469-487
  | .add x a y => match w.obj x, w.obj y with
    | some v, some u =>
      if u.n ≠ v.n then
        w' = w ∧ f = some (.throw "DensityMatrix::add_density_matrix_with_coef: Input density matrix size does not match density matrix size.")
      else ∃ h, DHeapRuns w.heap (dAxpy (2 ^ v.n) v.buf a u.buf) h ∧
        w' = w.put h x ⟨v.n, if u.hermitian = false ∨ a.im ≠ 0 then false else v.hermitian, v.buf⟩ ∧ f = none
    | _, _ => False
  | .act x a => match w.obj x with
    | none => False
    | some v => w.Act x v (dactCall a) w' f

/-- a program: stops at the first exception -/
def DWorld.Execs (junk : Nat → U64 × U64 → ℂ) (w : DWorld) : List DCmd → DWorld → Option Fault → Prop
  | [], w', f => w' = w ∧ f = none
  | c :: cs, w', f => ∃ w1 f1, w.Exec junk c w1 f1 ∧
      match f1 with
      | some e => w' = w1 ∧ f = some e
      | none => w1.Execs junk cs w' f

end Verif.Model
