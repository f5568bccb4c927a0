import Verif.Spec.Density
import Verif.Spec.Desc

/-!
# Specification: programs working on `DensityMatrix` objects

An object denotes a matrix and has its own answer to `is_hermitian()`.  Two objects share their elements iff they denote the same
matrix.  There are no addresses here.
-/

namespace Verif.Spec
open Verif.Model (GateDesc)
open scoped ComplexConjugate

/-- member functions that change the object they are called on and read no other density matrix -/
inductive DAct
  /-- `set_zero_state()` -/
  | zero
  /-- `set_zero_norm_state()` -/
  | zeroNorm
  /-- `set_computational_basis(k)` -/
  | basis (k : Nat)
  /-- `set_coherence_at(r, c, z)` -/
  | coherence (r c : Nat) (z : ℂ)
  /-- `set_coherence_pair_at(r, c, z)` -/
  | pair (r c : Nat) (z : ℂ)
  /-- `load(state)` with a state vector of `n` qubits -/
  | loadState (n : Nat) (ψ : BitVec 64 → ℂ)
  /-- `load(matrix, is_hermitian)` -/
  | loadMatrix (rows cols : Nat) (entry : BitVec 64 × BitVec 64 → ℂ) (claim : Bool)
  /-- `force_hermitian()` -/
  | force
  /-- `normalize()` -/
  | normalize
  /-- `multiply_coef(a)` -/
  | scale (a : ℂ)
  /-- `gate.update_quantum_state(x)` -/
  | gate (d : GateDesc)

/-- commands of a program with named objects -/
inductive DCmd
  /-- `DensityMatrix x(n)` -/
  | new (x : String) (n : Nat)
  /-- `DensityMatrix x(state)` -/
  | ofState (x : String) (n : Nat) (ψ : BitVec 64 → ℂ)
  /-- C++ only: `DensityMatrix x(y)` or `x = y` -/
  | same (x y : String)
  /-- C++ only: `DensityMatrix x(y._raw, claim)` -/
  | wrap (x y : String) (claim : Bool)
  /-- `x = y.copy()` -/
  | copy (x y : String)
  /-- `x = y.get_partial_trace(qs)` -/
  | ptrace (x y : String) (qs : List Nat)
  /-- `x.load(y)` -/
  | load (x y : String)
  /-- `x.add_density_matrix_with_coef(a, y)` -/
  | add (x : String) (a : ℂ) (y : String)
  /-- a member function of `x` -/
  | act (x : String) (a : DAct)

/-- number of qubits, answer of `is_hermitian()`, elements -/
structure DVal where
  n : Nat
  flag : Bool
  elem : BitVec 64 × BitVec 64 → ℂ

/-- what is said about a command -/
inductive Reply (α : Type)
  | done (a : α)
  /-- an exception, nothing changes -/
  | refused
  /-- outside the scope of the specification -/
  | unspecified

/-- `|k⟩⟨k|` -/
def basisMatrix (k : Nat) : BitVec 64 × BitVec 64 → ℂ := fun p => if p.1.toNat = k ∧ p.2.toNat = k then 1 else 0

/-- the gates that can be applied to density matrices -/
def ActsOnDensity : GateDesc → Prop
  | .ident | .globalPhase _ _ _ | .one _ _ _ _ | .swap _ _ _ _ | .ecr _ _ _ _ => True
  | _ => False

open Classical in
/-- the effect of a member function; `valid` are the gates that can be constructed -/
noncomputable def DAct.effect (valid : GateDesc → Prop) (v : DVal) : DAct → Reply DVal
  | .zero => .done ⟨v.n, true, basisMatrix 0⟩
  | .zeroNorm => .done ⟨v.n, true, fun _ => 0⟩
  | .basis k => if k < 2 ^ v.n then .done ⟨v.n, true, basisMatrix k⟩ else .refused
  | .coherence r c z =>
    if r < 2 ^ v.n ∧ c < 2 ^ v.n then
      .done ⟨v.n, v.flag && decide (r = c ∧ z.im = 0), fun p => if p.1.toNat = r ∧ p.2.toNat = c then z else v.elem p⟩
    else .refused
  | .pair r c z =>
    if r < 2 ^ v.n ∧ c < 2 ^ v.n then
      .done ⟨v.n, v.flag, fun p =>
        if p.1.toNat = r ∧ p.2.toNat = c then z else if p.1.toNat = c ∧ p.2.toNat = r then conj z else v.elem p⟩
    else .refused
  | .loadState n ψ => if n = v.n then .done ⟨v.n, true, projector ψ⟩ else .refused
  | .loadMatrix rows cols entry claim => if rows = 2 ^ v.n ∧ cols = 2 ^ v.n then .done ⟨v.n, claim, entry⟩ else .refused
  | .force => .done ⟨v.n, true, v.elem⟩
  | .normalize =>
    if traceOf (2 ^ v.n) v.elem = 0 then .unspecified else .done ⟨v.n, v.flag, fun p => v.elem p / traceOf (2 ^ v.n) v.elem⟩
  | .scale a => .done ⟨v.n, v.flag && decide (a.im = 0), fun p => a * v.elem p⟩
  | .gate d =>
    if valid d then
      if ActsOnDensity d ∧ ∀ q ∈ qubitsOf d, q < v.n then .done ⟨v.n, v.flag, conjugatedBy (2 ^ v.n) (operatorOf d) v.elem⟩
      else .refused
    else .unspecified

/-- the effect of `v.add_density_matrix_with_coef(a, u)` for matrices of the same size -/
noncomputable def DVal.plus (v : DVal) (a : ℂ) (u : DVal) : DVal :=
  ⟨v.n, v.flag && u.flag && decide (a.im = 0), fun p => v.elem p + a * u.elem p⟩

/-- the partial trace is given by the specification (`C51`) -/
def TraceOK (n : Nat) (qs : List Nat) : Prop := qs.Nodup ∧ ∀ q ∈ qs, q < n

/-! ## programs with shared matrices -/

/-- matrices `0, …, count - 1` are in use; `obj x` is the matrix denoted by `x` and its answer to `is_hermitian()` -/
structure DStore where
  count : Nat
  qubits : Nat → Nat
  elem : Nat → BitVec 64 × BitVec 64 → ℂ
  obj : String → Option (Nat × Bool)

/-- no objects -/
def DStore.empty : DStore := ⟨0, fun _ => 0, fun _ _ => 0, fun _ => none⟩

/-- the value of the object -/
def DStore.val (s : DStore) (c : Nat) (flag : Bool) : DVal := ⟨s.qubits c, flag, s.elem c⟩

/-- the object `x` denotes a new matrix -/
def DStore.fresh (s : DStore) (x : String) (v : DVal) : DStore :=
  ⟨s.count + 1, Function.update s.qubits s.count v.n, Function.update s.elem s.count v.elem,
    Function.update s.obj x (some (s.count, v.flag))⟩

/-- the matrix `c`, denoted by `x`, gets new elements and `x` a new flag -/
def DStore.set (s : DStore) (x : String) (c : Nat) (v : DVal) : DStore :=
  ⟨s.count, s.qubits, Function.update s.elem c v.elem, Function.update s.obj x (some (c, v.flag))⟩

open Classical in
/-- the effect of a command -/
noncomputable def DStore.step (valid : GateDesc → Prop) (s : DStore) : DCmd → Reply DStore
  | .new x n => if n < 32 then .done (s.fresh x ⟨n, true, basisMatrix 0⟩) else .unspecified
  | .ofState x n ψ => if n < 32 then .done (s.fresh x ⟨n, true, projector ψ⟩) else .unspecified
  | .same x y => match s.obj y with
    | some (c, f) => .done { s with obj := Function.update s.obj x (some (c, f)) }
    | none => .unspecified
  | .wrap x y claim => match s.obj y with
    | some (c, _) => .done { s with obj := Function.update s.obj x (some (c, claim)) }
    | none => .unspecified
  | .copy x y => match s.obj y with
    | some (c, f) => .done (s.fresh x (s.val c f))
    | none => .unspecified
  | .ptrace x y qs => match s.obj y with
    | some (c, f) =>
      if TraceOK (s.qubits c) qs then
        if qs = [] ∨ s.qubits c - qs.length < 16 then
          .done (s.fresh x ⟨s.qubits c - qs.length, f, partialTraceOf (s.qubits c) qs (s.elem c)⟩)
        else .unspecified
      else .refused
    | none => .unspecified
  | .load x y => match s.obj x, s.obj y with
    | some (c, _), some (d, g) => if s.qubits c = s.qubits d then .done (s.set x c (s.val d g)) else .refused
    | _, _ => .unspecified
  | .add x a y => match s.obj x, s.obj y with
    | some (c, f), some (d, g) => if s.qubits c = s.qubits d then .done (s.set x c ((s.val c f).plus a (s.val d g))) else .refused
    | _, _ => .unspecified
  | .act x a => match s.obj x with
    | some (c, f) => match a.effect valid (s.val c f) with
      | .done v => .done (s.set x c v)
      | .refused => .refused
      | .unspecified => .unspecified
    | none => .unspecified

/-- how a program ends -/
inductive Ending (α : Type)
  /-- all commands were executed -/
  | finished (a : α)
  /-- a command was refused; the objects are as before this command -/
  | stopped (a : α)
  | unspecified

/-- the effect of a program -/
noncomputable def DStore.run (valid : GateDesc → Prop) (s : DStore) : List DCmd → Ending DStore
  | [] => .finished s
  | c :: cs => match s.step valid c with
    | .done s' => s'.run valid cs
    | .refused => .stopped s
    | .unspecified => .unspecified

/-! ## programs in which objects are values -/

/-- the command makes two objects share their elements -/
def DCmd.Shares : DCmd → Prop
  | .same _ _ | .wrap _ _ _ => True
  | _ => False

/-- every object is a value of its own -/
abbrev DValues := String → Option DVal

open Classical in
/-- the effect of a command on values; commands that make objects share are left out -/
noncomputable def DValues.step (valid : GateDesc → Prop) (vs : DValues) : DCmd → Reply DValues
  | .new x n => if n < 32 then .done (Function.update vs x (some ⟨n, true, basisMatrix 0⟩)) else .unspecified
  | .ofState x n ψ => if n < 32 then .done (Function.update vs x (some ⟨n, true, projector ψ⟩)) else .unspecified
  | .same _ _ => .unspecified
  | .wrap _ _ _ => .unspecified
  | .copy x y => match vs y with
    | some v => .done (Function.update vs x (some v))
    | none => .unspecified
  | .ptrace x y qs => match vs y with
    | some v =>
      if TraceOK v.n qs then
        if qs = [] ∨ v.n - qs.length < 16 then
          .done (Function.update vs x (some ⟨v.n - qs.length, v.flag, partialTraceOf v.n qs v.elem⟩))
        else .unspecified
      else .refused
    | none => .unspecified
  | .load x y => match vs x, vs y with
    | some v, some u => if v.n = u.n then .done (Function.update vs x (some u)) else .refused
    | _, _ => .unspecified
  | .add x a y => match vs x, vs y with
    | some v, some u => if v.n = u.n then .done (Function.update vs x (some (v.plus a u))) else .refused
    | _, _ => .unspecified
  | .act x a => match vs x with
    | some v => match a.effect valid v with
      | .done v' => .done (Function.update vs x (some v'))
      | .refused => .refused
      | .unspecified => .unspecified
    | none => .unspecified

/-- the effect of a program on values -/
noncomputable def DValues.run (valid : GateDesc → Prop) (vs : DValues) : List DCmd → Ending DValues
  | [] => .finished vs
  | c :: cs => match DValues.step valid vs c with
    | .done vs' => DValues.run valid vs' cs
    | .refused => .stopped vs
    | .unspecified => .unspecified

/-- what the caller says about the matrix is true: a matrix loaded as Hermitian or declared Hermitian is, and a diagonal element set
as a pair is real -/
def DAct.Truthful (v : DVal) : DAct → Prop
  | .loadMatrix _ _ entry claim => claim = true → HermitianOn (2 ^ v.n) entry
  | .force => HermitianOn (2 ^ v.n) v.elem
  | .pair r c z => r = c → z.im = 0
  | _ => True

/-- all claims made in the program are true when they are made -/
def DValues.Truthful (valid : GateDesc → Prop) (vs : DValues) : List DCmd → Prop
  | [] => True
  | c :: cs => (∀ x a v, c = .act x a → vs x = some v → a.Truthful v) ∧
      ∀ vs', DValues.step valid vs c = .done vs' → DValues.Truthful valid vs' cs

end Verif.Spec
