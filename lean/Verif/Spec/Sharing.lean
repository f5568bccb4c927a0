import Verif.Spec.Desc

/-!
# Specification: which state objects share their amplitudes

A *cell* is one state vector.  A `StateVector` object denotes a cell, a `StateVectorBatched` object a list of cells; two objects
share amplitudes iff they denote the same cell.  There are no addresses here.
-/

namespace Verif.Spec
open Verif.Model (GateDesc)

/-- commands of a program working on named states (lower case: `StateVector`) and batches (upper case: `StateVectorBatched`) -/
inductive Cmd
  /-- `StateVector x(n)` -/
  | newVec (x : String) (n : Nat)
  /-- `StateVector x(y)` or `x = y` -/
  | shareVec (x y : String)
  /-- `x = y.copy()` -/
  | copyVec (x y : String)
  /-- `x.load(y)` -/
  | loadVec (x y : String)
  /-- `x.load(vector)` -/
  | loadList (x : String) (amps : List ℂ)
  /-- `x.set_amplitude_at(i, a)` -/
  | setAmp (x : String) (i : Nat) (a : ℂ)
  /-- `x.set_computational_basis(k)` -/
  | setBasis (x : String) (k : Nat)
  /-- `x.set_zero_norm_state()` -/
  | setZeroNorm (x : String)
  /-- `x.multiply_coef(a)` -/
  | mulCoef (x : String) (a : ℂ)
  /-- `x.add_state_vector_with_coef(a, y)` -/
  | addCoef (x : String) (a : ℂ) (y : String)
  /-- `gate.update_quantum_state(x)` -/
  | gate (x : String) (d : GateDesc)
  /-- `StateVectorBatched X(B, n)` -/
  | newBatch (X : String) (B n : Nat)
  /-- `StateVectorBatched X(Y)` or `X = Y` -/
  | shareBatch (X Y : String)
  /-- `X = Y.copy()` -/
  | copyBatch (X Y : String)
  /-- `X.load(Y)` -/
  | loadBatch (X Y : String)
  /-- `X.load(vectors)` -/
  | loadLists (X : String) (amps : List (List ℂ))
  /-- `X.set_computational_basis(k)` -/
  | setBasisBatch (X : String) (k : Nat)
  /-- `X.set_zero_norm_state()` -/
  | setZeroNormBatch (X : String)
  /-- `X.multiply_coef(a)` -/
  | mulBatch (X : String) (a : ℂ)
  /-- `X.add_state_vector_with_coef(a, Y)` -/
  | addBatch (X : String) (a : ℂ) (Y : String)
  /-- `gate.update_quantum_state(X)` -/
  | gateBatch (X : String) (d : GateDesc)
  /-- `X.set_state_vector(y)` -/
  | setAll (X y : String)
  /-- `X.set_state_vector_at(b, y)` -/
  | setAt (X : String) (b : Nat) (y : String)
  /-- `x = X.view_state_vector_at(b)` -/
  | view (x X : String) (b : Nat)
  /-- `x = X.get_state_vector_at(b)` -/
  | getAt (x X : String) (b : Nat)
  /-- `x = X.get_reduced_state()` -/
  | reduced (x X : String)

/-- cells `0, …, cells - 1` are in use; cell `c` has `qubits c` qubits and the amplitudes `val c` -/
structure Store where
  cells : Nat
  qubits : Nat → Nat
  val : Nat → BitVec 64 → ℂ
  vec : String → Option Nat
  bat : String → Option (Nat × List Nat)

/-- no objects -/
def Store.empty : Store := ⟨0, fun _ => 0, fun _ _ => 0, fun _ => none, fun _ => none⟩

/-- what the specification says about one command -/
inductive Outcome
  | done (s : Store)
  /-- an exception, nothing changes -/
  | refused
  /-- outside the scope of the specification -/
  | unspecified

/-- the cell `c` gets the amplitudes `v` -/
def Store.set (s : Store) (c : Nat) (v : BitVec 64 → ℂ) : Store := { s with val := Function.update s.val c v }

/-- the object `x` denotes a new cell of `n` qubits with amplitudes `v` -/
def Store.fresh (s : Store) (x : String) (n : Nat) (v : BitVec 64 → ℂ) : Store :=
  { cells := s.cells + 1, qubits := Function.update s.qubits s.cells n, val := Function.update s.val s.cells v
    vec := Function.update s.vec x (some s.cells), bat := s.bat }

/-- the `b`-th cell of the list `cs` gets the amplitudes `F b v`, where `v` are its present ones -/
def Store.setMany (s : Store) (cs : List Nat) (F : Nat → (BitVec 64 → ℂ) → BitVec 64 → ℂ) : Store :=
  { s with val := fun c => if c ∈ cs then F (cs.idxOf c) (s.val c) else s.val c }

/-- the object `X` denotes `B` new cells of `n` qubits with amplitudes `v b` -/
def Store.freshBatch (s : Store) (X : String) (B n : Nat) (v : Nat → BitVec 64 → ℂ) : Store :=
  { cells := s.cells + B
    qubits := fun c => if s.cells ≤ c then n else s.qubits c
    val := fun c => if s.cells ≤ c then v (c - s.cells) else s.val c
    vec := s.vec
    bat := Function.update s.bat X (some (n, (List.range B).map (s.cells + ·))) }

/-- the amplitudes of basis state `k` -/
def basisState (k : Nat) : BitVec 64 → ℂ := fun j => if j.toNat = k then 1 else 0

/-- the amplitudes in the list -/
def ofList (amps : List ℂ) : BitVec 64 → ℂ := fun j => if h : j.toNat < amps.length then amps[j.toNat] else 0

/-- the amplitudes of the `b`-th cell -/
def Store.cellAt (s : Store) (cs : List Nat) (b : Nat) : BitVec 64 → ℂ :=
  if h : b < cs.length then s.val cs[b] else fun _ => 0

/-- `valid`: the gates that can be constructed; `rebinds`: the gates that leave the given amplitudes alone and let the object denote new
ones (what is meant is that there are none) -/
structure Kit where
  valid : GateDesc → Prop
  rebinds : GateDesc → Prop

open Classical in
/-- the effect of a command -/
noncomputable def Store.step (K : Kit) (s : Store) : Cmd → Outcome
  | .newVec x n => if n < 64 then .done (s.fresh x n (basisState 0)) else .unspecified
  | .shareVec x y => match s.vec y with
    | some c => .done { s with vec := Function.update s.vec x (some c) }
    | none => .unspecified
  | .copyVec x y => match s.vec y with
    | some c => .done (s.fresh x (s.qubits c) (s.val c))
    | none => .unspecified
  | .loadVec x y => match s.vec x, s.vec y with
    | some c, some d => if s.qubits c = s.qubits d then .done (s.set c (s.val d)) else .refused
    | _, _ => .unspecified
  | .loadList x amps => match s.vec x with
    | some c => if amps.length = 2 ^ s.qubits c then .done (s.set c (ofList amps)) else .refused
    | none => .unspecified
  | .setAmp x i a => match s.vec x with
    | some c => if i < 2 ^ s.qubits c then .done (s.set c fun j => if j.toNat = i then a else s.val c j) else .unspecified
    | none => .unspecified
  | .setBasis x k => match s.vec x with
    | some c => if k < 2 ^ s.qubits c then .done (s.set c (basisState k)) else .refused
    | none => .unspecified
  | .setZeroNorm x => match s.vec x with
    | some c => .done (s.set c fun _ => 0)
    | none => .unspecified
  | .mulCoef x a => match s.vec x with
    | some c => .done (s.set c fun j => a * s.val c j)
    | none => .unspecified
  | .addCoef x a y => match s.vec x, s.vec y with
    | some c, some d => if s.qubits c = s.qubits d then .done (s.set c fun j => s.val c j + a * s.val d j) else .unspecified
    | _, _ => .unspecified
  | .gate x d => match s.vec x with
    | some c =>
      if K.valid d ∧ ∀ q ∈ qubitsOf d, q < s.qubits c then
        let v := onState (2 ^ s.qubits c) (operatorOf d) (s.val c)
        if K.rebinds d then .done (s.fresh x (s.qubits c) v) else .done (s.set c v)
      else .unspecified
    | none => .unspecified
  | .newBatch X B n =>
    if n < 64 ∧ B * 2 ^ n ≤ 2 ^ 64 then .done (s.freshBatch X B n fun _ => basisState 0) else .unspecified
  | .shareBatch X Y => match s.bat Y with
    | some p => .done { s with bat := Function.update s.bat X (some p) }
    | none => .unspecified
  | .copyBatch X Y => match s.bat Y with
    | some (n, cs) => .done (s.freshBatch X cs.length n fun b => s.cellAt cs b)
    | none => .unspecified
  | .loadBatch X Y => match s.bat X, s.bat Y with
    | some (n, cs), some (m, ds) =>
      if cs.length = ds.length ∧ n = m then .done (s.setMany cs fun b _ => s.cellAt ds b) else .refused
    | _, _ => .unspecified
  | .loadLists X amps => match s.bat X with
    | some (n, cs) =>
      if amps.length = cs.length ∧ ∀ a ∈ amps, a.length = 2 ^ n then
        .done (s.setMany cs fun b _ => if h : b < amps.length then ofList amps[b] else fun _ => 0)
      else .refused
    | none => .unspecified
  | .setBasisBatch X k => match s.bat X with
    | some (n, cs) => if k < 2 ^ n then .done (s.setMany cs fun _ _ => basisState k) else .refused
    | none => .unspecified
  | .setZeroNormBatch X => match s.bat X with
    | some (_, cs) => .done (s.setMany cs fun _ _ _ => 0)
    | none => .unspecified
  | .mulBatch X a => match s.bat X with
    | some (_, cs) => .done (s.setMany cs fun _ v j => a * v j)
    | none => .unspecified
  | .addBatch X a Y => match s.bat X, s.bat Y with
    | some (n, cs), some (m, ds) =>
      if n = m ∧ cs.length = ds.length then .done (s.setMany cs fun b v j => v j + a * s.cellAt ds b j) else .refused
    | _, _ => .unspecified
  | .gateBatch X d => match s.bat X with
    | some (n, cs) =>
      if K.valid d ∧ ∀ q ∈ qubitsOf d, q < n then
        if K.rebinds d then .done (s.freshBatch X cs.length n fun b => onState (2 ^ n) (operatorOf d) (s.cellAt cs b))
        else .done (s.setMany cs fun _ v => onState (2 ^ n) (operatorOf d) v)
      else .unspecified
    | none => .unspecified
  | .setAll X y => match s.bat X, s.vec y with
    | some (n, cs), some d =>
      if n = s.qubits d then if d ∈ cs then .unspecified else .done (s.setMany cs fun _ _ => s.val d) else .refused
    | _, _ => .unspecified
  | .setAt X b y => match s.bat X, s.vec y with
    | some (n, cs), some d =>
      if h : b < cs.length then if n = s.qubits d then .done (s.set cs[b] (s.val d)) else .refused else .refused
    | _, _ => .unspecified
  | .view x X b => match s.bat X with
    | some (_, cs) => if h : b < cs.length then .done { s with vec := Function.update s.vec x (some cs[b]) } else .refused
    | none => .unspecified
  | .getAt x X b => match s.bat X with
    | some (n, cs) => if h : b < cs.length then .done (s.fresh x n (s.val cs[b])) else .refused
    | none => .unspecified
  | .reduced x X => match s.bat X with
    | some (n, cs) => .done (s.fresh x n fun j => ∑ b ∈ Finset.range cs.length, s.cellAt cs b j)
    | none => .unspecified

/-- how a program ends -/
inductive Final
  /-- all commands were executed -/
  | finished (s : Store)
  /-- a command was refused; the objects are as before this command -/
  | stopped (s : Store)
  | unspecified

/-- the effect of a program -/
noncomputable def Store.run (K : Kit) (s : Store) : List Cmd → Final
  | [] => .finished s
  | c :: cs => match s.step K c with
    | .done s' => s'.run K cs
    | .refused => .stopped s
    | .unspecified => .unspecified

/-- the list of the amplitudes of a cell -/
def Store.list (s : Store) (c : Nat) : List ℂ := (List.range (2 ^ s.qubits c)).map fun i => s.val c (BitVec.ofNat 64 i)

/-- the gates in a command -/
def Cmd.gates : Cmd → List GateDesc
  | .gate _ d => [d]
  | .gateBatch _ d => [d]
  | _ => []

/-- the `StateVector` objects that a command names -/
def Cmd.vecs : Cmd → List String
  | .newVec x _ => [x]
  | .shareVec x y => [x, y]
  | .copyVec x y => [x, y]
  | .loadVec x y => [x, y]
  | .loadList x _ => [x]
  | .setAmp x _ _ => [x]
  | .setBasis x _ => [x]
  | .setZeroNorm x => [x]
  | .mulCoef x _ => [x]
  | .addCoef x _ y => [x, y]
  | .gate x _ => [x]
  | .setAll _ y => [y]
  | .setAt _ _ y => [y]
  | .view x _ _ => [x]
  | .getAt x _ _ => [x]
  | .reduced x _ => [x]
  | _ => []

/-- the `StateVectorBatched` objects that a command names -/
def Cmd.bats : Cmd → List String
  | .newBatch X _ _ => [X]
  | .shareBatch X Y => [X, Y]
  | .copyBatch X Y => [X, Y]
  | .loadBatch X Y => [X, Y]
  | .loadLists X _ => [X]
  | .setBasisBatch X _ => [X]
  | .setZeroNormBatch X => [X]
  | .mulBatch X _ => [X]
  | .addBatch X _ Y => [X, Y]
  | .gateBatch X _ => [X]
  | .setAll X _ => [X]
  | .setAt X _ _ => [X]
  | .view _ X _ => [X]
  | .getAt _ X _ => [X]
  | .reduced _ X => [X]
  | _ => []

/-- the `StateVector` objects that are declared or assigned by a command -/
def Cmd.assignsVec : Cmd → List String
  | .newVec x _ => [x]
  | .shareVec x _ => [x]
  | .copyVec x _ => [x]
  | .view x _ _ => [x]
  | .getAt x _ _ => [x]
  | .reduced x _ => [x]
  | _ => []

/-- the `StateVectorBatched` objects that are declared or assigned by a command -/
def Cmd.assignsBat : Cmd → List String
  | .newBatch X _ _ => [X]
  | .shareBatch X _ => [X]
  | .copyBatch X _ => [X]
  | _ => []

/-- the command makes a `StateVector` that is to be independent of all other objects -/
def Cmd.makesVec : Cmd → List String
  | .newVec x _ => [x]
  | .copyVec x _ => [x]
  | .getAt x _ _ => [x]
  | .reduced x _ => [x]
  | _ => []

/-- the command makes a `StateVectorBatched` that is to be independent of all other objects -/
def Cmd.makesBat : Cmd → List String
  | .newBatch X _ _ => [X]
  | .copyBatch X _ => [X]
  | _ => []

end Verif.Spec
