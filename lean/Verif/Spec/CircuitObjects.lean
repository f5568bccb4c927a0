import Verif.Model.Circuit
import Mathlib.Logic.Function.Basic

/-!
# Specification: circuit objects

A circuit is a list of lines: a gate, or a parametric gate with its key, and possibly a condition.  Objects are numbered; a name denotes an
object.  The list of an object from which `std::move` has taken the gates is left open (`none`).
-/

namespace Verif.Spec
open Verif.Model (Gate PGate Item Condition bitCondition)

/-- one line of a circuit -/
structure CircLine where
  item : Item
  cond : Option Condition

/-- commands of a program working on named circuits -/
inductive CircCmd
  /-- `x = Circuit()` -/
  | new (x : String)
  /-- a second name for the same object (Python `x = y`, C++ `Circuit& x = y`) -/
  | same (x y : String)
  /-- `x = y.copy()`, C++ `Circuit x(y)` -/
  | copy (x y : String)
  /-- C++ `x = y` -/
  | assign (x y : String)
  | addGate (x : String) (g : Gate)
  | addParamGate (x : String) (g : PGate) (key : String)
  | addConditionalGate (x : String) (g : Gate) (c : Condition)
  | addConditionalParamGate (x : String) (g : PGate) (key : String) (c : Condition)
  /-- `x.add_circuit(y)` -/
  | addCircuit (x y : String)
  /-- C++ `x.add_circuit(std::move(y))` -/
  | addCircuitMove (x y : String)

/-- see the head of the file -/
structure CircStore where
  objs : Nat
  lines : Nat → Option (List CircLine)
  name : String → Option Nat

/-- no objects -/
def CircStore.empty : CircStore := ⟨0, fun _ => none, fun _ => none⟩

/-- the object of `x` and its lines -/
def CircStore.find (s : CircStore) (x : String) : Option (Nat × List CircLine) :=
  match s.name x with
  | none => none
  | some k => match s.lines k with
    | none => none
    | some l => some (k, l)

/-- object `k` gets the lines `l` -/
def CircStore.put (s : CircStore) (k : Nat) (l : Option (List CircLine)) : CircStore := { s with lines := Function.update s.lines k l }

/-- one more object -/
def CircStore.fresh (s : CircStore) (x : String) (l : List CircLine) : CircStore :=
  ⟨s.objs + 1, Function.update s.lines s.objs (some l), Function.update s.name x (some s.objs)⟩

/-- lines are added at the end of `x` -/
def CircStore.extend (s : CircStore) (x : String) (l : List CircLine) : Option CircStore :=
  match s.find x with
  | none => none
  | some (k, l0) => some (s.put k (some (l0 ++ l)))

/-- the effect of a command; `none`: nothing is said (a name without object, an object that was moved from, `x.add_circuit(std::move(x))`) -/
def CircStore.step (s : CircStore) : CircCmd → Option CircStore
  | .new x => some (s.fresh x [])
  | .same x y => match s.name y with
    | none => none
    | some k => some { s with name := Function.update s.name x (some k) }
  | .copy x y => match s.find y with
    | none => none
    | some (_, l) => some (s.fresh x l)
  | .assign x y => match s.name x, s.find y with
    | some k, some (_, l) => some (s.put k (some l))
    | _, _ => none
  | .addGate x g => s.extend x [⟨.inl g, none⟩]
  | .addParamGate x g key => s.extend x [⟨.inr (g, key), none⟩]
  | .addConditionalGate x g c => s.extend x [⟨.inl g, some c⟩]
  | .addConditionalParamGate x g key c => s.extend x [⟨.inr (g, key), some c⟩]
  | .addCircuit x y => match s.find y with
    | none => none
    | some (_, l) => s.extend x l
  | .addCircuitMove x y => match s.find x, s.find y with
    | some (k, l), some (k', l') => if k = k' then none else some ((s.put k (some (l ++ l'))).put k' none)
    | _, _ => none

/-- the effect of a program -/
def CircStore.run (s : CircStore) : List CircCmd → Option CircStore
  | [] => some s
  | c :: cs => match s.step c with
    | none => none
    | some s' => s'.run cs

end Verif.Spec
