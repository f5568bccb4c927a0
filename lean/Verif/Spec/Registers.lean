import Mathlib.Logic.Function.Basic

/-!
# Specification: classical registers

Objects are numbered in the order of their creation.  Object `k` consists of `count k` registers (one for a `ClassicalRegister`) of `size k`
bits each.  A name denotes one register (an object and a slot) or a whole batch.  There are no lists and no addresses here: bits are a
function.
-/

namespace Verif.Spec

/-- commands of a program working on named registers (`x`, `y`) and batches of registers (`X`, `Y`) -/
inductive RegCmd
  /-- `x = ClassicalRegister(n)` -/
  | new (x : String) (n : Nat)
  /-- `X = ClassicalRegisterBatched(n, B)` -/
  | newB (X : String) (n B : Nat)
  /-- a second name for the same register (Python `x = y`, C++ `ClassicalRegister& x = y`) -/
  | same (x y : String)
  /-- a second name for the same batch -/
  | sameB (X Y : String)
  /-- a new register with the contents of `y` (C++ `ClassicalRegister x(y)`) -/
  | copy (x y : String)
  /-- a new batch with the contents of `Y` -/
  | copyB (X Y : String)
  /-- `x = X[b]`, a reference -/
  | ref (x X : String) (b : Nat)
  /-- `x[i] = v` -/
  | set (x : String) (i : Nat) (v : Bool)
  /-- `x.reset()` -/
  | reset (x : String)
  /-- `X[b, i] = v`, in C++ `X(b, i) = v` -/
  | setB (X : String) (b i : Nat) (v : Bool)
  /-- `X.reset()` -/
  | resetB (X : String)
  /-- Python `X[b] = y` -/
  | assign (X : String) (b : Nat) (y : String)

/-- see the head of the file -/
structure RegStore where
  objs : Nat
  size : Nat → Nat
  count : Nat → Nat
  bit : Nat → Nat → Nat → Bool
  reg : String → Option (Nat × Nat)
  bat : String → Option Nat

/-- no objects -/
def RegStore.empty : RegStore := ⟨0, fun _ => 0, fun _ => 0, fun _ _ _ => false, fun _ => none, fun _ => none⟩

/-- what is said about one command -/
inductive RegOutcome
  | done (s : RegStore)
  /-- an exception, nothing changes -/
  | refused
  /-- a name without object -/
  | unspecified

/-- one more object -/
def RegStore.fresh (s : RegStore) (n B : Nat) (bits : Nat → Nat → Bool) : RegStore :=
  { s with objs := s.objs + 1
           size := Function.update s.size s.objs n
           count := Function.update s.count s.objs B
           bit := Function.update s.bit s.objs bits }

/-- other bits for register `b` of object `k` -/
def RegStore.write (s : RegStore) (k b : Nat) (bits : Nat → Bool) : RegStore :=
  { s with bit := Function.update s.bit k (Function.update (s.bit k) b bits) }

/-- the effect of a command -/
def RegStore.step (s : RegStore) : RegCmd → RegOutcome
  | .new x n => .done { s.fresh n 1 (fun _ _ => false) with reg := Function.update s.reg x (some (s.objs, 0)) }
  | .newB X n B => .done { s.fresh n B (fun _ _ => false) with bat := Function.update s.bat X (some s.objs) }
  | .same x y => match s.reg y with
    | none => .unspecified
    | some c => .done { s with reg := Function.update s.reg x (some c) }
  | .sameB X Y => match s.bat Y with
    | none => .unspecified
    | some k => .done { s with bat := Function.update s.bat X (some k) }
  | .copy x y => match s.reg y with
    | none => .unspecified
    | some (k, b) => .done { s.fresh (s.size k) 1 (fun _ => s.bit k b) with reg := Function.update s.reg x (some (s.objs, 0)) }
  | .copyB X Y => match s.bat Y with
    | none => .unspecified
    | some k => .done { s.fresh (s.size k) (s.count k) (s.bit k) with bat := Function.update s.bat X (some s.objs) }
  | .ref x X b => match s.bat X with
    | none => .unspecified
    | some k => if b < s.count k then .done { s with reg := Function.update s.reg x (some (k, b)) } else .refused
  | .set x i v => match s.reg x with
    | none => .unspecified
    | some (k, b) => if i < s.size k then .done (s.write k b (Function.update (s.bit k b) i v)) else .refused
  | .reset x => match s.reg x with
    | none => .unspecified
    | some (k, b) => .done (s.write k b fun _ => false)
  | .setB X b i v => match s.bat X with
    | none => .unspecified
    | some k => if b < s.count k ∧ i < s.size k then .done (s.write k b (Function.update (s.bit k b) i v)) else .refused
  | .resetB X => match s.bat X with
    | none => .unspecified
    | some k => .done { s with bit := Function.update s.bit k fun _ _ => false }
  | .assign X b y => match s.bat X, s.reg y with
    | some k, some (k', b') => if s.size k' = s.size k ∧ b < s.count k then .done (s.write k b (s.bit k' b')) else .refused
    | _, _ => .unspecified

/-- the effect of a program in which every exception is caught; `none` if a name without object is used -/
def RegStore.run (s : RegStore) : List RegCmd → Option RegStore
  | [] => some s
  | c :: cs => match s.step c with
    | .done s' => s'.run cs
    | .refused => s.run cs
    | .unspecified => none

/-- the command can change bits of object `k` -/
def RegCmd.writesTo (s : RegStore) (k : Nat) : RegCmd → Prop
  | .set x _ _ | .reset x => ∃ b, s.reg x = some (k, b)
  | .setB X _ _ _ | .resetB X | .assign X _ _ => s.bat X = some k
  | _ => False

end Verif.Spec
