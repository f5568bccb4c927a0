import Verif.Model.PauliBatch
import Mathlib.Logic.Function.Basic

/-!
# Specification: which operator objects share their terms

A *cell* is one list of terms.  An `Operator` object denotes a cell, an `OperatorBatched` object a list of cells; two objects share terms
iff they denote the same cell.  There are no addresses here.  What the arithmetic does with terms is the subject of C18–C30; here it only
matters which cells change.
-/

namespace Verif.Spec
open Verif.Model (PauliOp)

/-- commands of a program working on named operators (lower case: `Operator`) and batches (upper case: `OperatorBatched`) -/
inductive OCmd
  /-- `Operator x(terms)` -/
  | new (x : String) (ts : List PauliOp)
  /-- `Operator x(y)`, `x = y` or `x = +y` -/
  | share (x y : String)
  /-- `x = y.copy()` -/
  | copy (x y : String)
  /-- `x.load(terms)` -/
  | load (x : String) (ts : List PauliOp)
  /-- `x.optimize()` -/
  | optimize (x : String)
  /-- `x *= c` -/
  | scaleAssign (x : String) (c : ℂ)
  /-- `x *= p` with a `PauliOperator` -/
  | mulPauliAssign (x : String) (p : PauliOp)
  /-- `x = y.get_dagger()` -/
  | dagger (x y : String)
  /-- `x = y * c` (`x = -y` is `c = -1`) -/
  | scale (x y : String) (c : ℂ)
  /-- `x = y * p` -/
  | mulPauli (x y : String) (p : PauliOp)
  /-- `x = y + p` -/
  | addPauli (x y : String) (p : PauliOp)
  /-- `x = y + z` -/
  | add (x y z : String)
  /-- `x = y - z` -/
  | sub (x y z : String)
  /-- `x = y * z` -/
  | mul (x y z : String)
  /-- `OperatorBatched X(lists of terms)` -/
  | newB (X : String) (ls : List (List PauliOp))
  /-- `OperatorBatched X({y, z, …})` -/
  | ofOps (X : String) (ys : List String)
  /-- `OperatorBatched X(Y)`, `X = Y` or `X = +Y` -/
  | shareB (X Y : String)
  /-- `X = Y.copy()` -/
  | copyB (X Y : String)
  /-- `X.load(lists of terms)` -/
  | loadB (X : String) (ls : List (List PauliOp))
  /-- `X = Y.get_dagger()` -/
  | daggerB (X Y : String)
  /-- `X = -Y` -/
  | negB (X Y : String)
  /-- `X = Y + Z` -/
  | addB (X Y Z : String)
  /-- `X = Y * Z` -/
  | mulB (X Y Z : String)
  /-- `x = X.view_operator_at(i)` -/
  | view (x X : String) (i : Nat)
  /-- `x = X.get_operator_at(i)` -/
  | getAt (x X : String) (i : Nat)

/-- cells `0, …, cells - 1` are in use and hold the terms `val c`; an operator denotes a cell and may be a view -/
structure OStore where
  cells : Nat
  val : Nat → List PauliOp
  op : String → Option (Nat × Bool)
  bat : String → Option (List Nat)

/-- no objects -/
def OStore.empty : OStore := ⟨0, fun _ => [], fun _ => none, fun _ => none⟩

/-- what the specification says about one command -/
inductive OOutcome
  | done (s : OStore)
  /-- an exception, nothing changes -/
  | refused
  /-- outside the scope of the specification -/
  | unspecified

/-- the cell `c` gets the terms `ts` -/
def OStore.set (s : OStore) (c : Nat) (ts : List PauliOp) : OStore := { s with val := Function.update s.val c ts }

/-- the object `x` denotes a new cell with the terms `ts` -/
def OStore.fresh (s : OStore) (x : String) (ts : List PauliOp) : OStore :=
  { cells := s.cells + 1, val := Function.update s.val s.cells ts, op := Function.update s.op x (some (s.cells, false)), bat := s.bat }

/-- the object `X` denotes new cells with the terms `ls` -/
def OStore.freshBatch (s : OStore) (X : String) (ls : List (List PauliOp)) : OStore :=
  { cells := s.cells + ls.length
    val := fun c => if h : s.cells ≤ c ∧ c - s.cells < ls.length then ls[c - s.cells] else s.val c
    op := s.op
    bat := Function.update s.bat X (some ((List.range ls.length).map (s.cells + ·))) }

/-- the operator `x` denotes the cell `c`; `f` says what happens then -/
def OStore.withOp (s : OStore) (x : String) (f : Nat → Bool → OOutcome) : OOutcome :=
  match s.op x with
  | none => .unspecified
  | some (c, v) => f c v

/-- the batch `X` denotes the cells `cs` -/
def OStore.withBat (s : OStore) (X : String) (f : List Nat → OOutcome) : OOutcome :=
  match s.bat X with
  | none => .unspecified
  | some cs => f cs

/-- the terms of the operators `ys` -/
def OStore.lists (s : OStore) : List String → Option (List (List PauliOp))
  | [] => some []
  | y :: ys => match s.op y, s.lists ys with
    | some (c, _), some l => some (s.val c :: l)
    | _, _ => none

open Classical in
/-- the effect of a command; `norm ts` are the terms that `optimize` makes of `ts` (C27).  Left open: `load` of a batch that another object
denotes as well. -/
noncomputable def OStore.step (norm : List PauliOp → List PauliOp) (s : OStore) : OCmd → OOutcome
  | .new x ts => .done (s.fresh x ts)
  | .share x y => s.withOp y fun c v => .done { s with op := Function.update s.op x (some (c, v)) }
  | .copy x y => s.withOp y fun c _ => .done (s.fresh x (s.val c))
  | .load x ts => s.withOp x fun c _ => if ts.length = (s.val c).length then .done (s.set c ts) else .refused
  | .optimize x => s.withOp x fun c v => if v then .refused else .done (s.fresh x (norm (s.val c)))
  | .scaleAssign x a => s.withOp x fun c _ => .done (s.set c ((s.val c).map fun p => p.scale a))
  | .mulPauliAssign x p => s.withOp x fun c _ => .done (s.set c ((s.val c).map fun q => q.mul p))
  | .dagger x y => s.withOp y fun c _ => .done (s.fresh x ((s.val c).map PauliOp.dagger))
  | .scale x y a => s.withOp y fun c _ => .done (s.fresh x ((s.val c).map fun p => p.scale a))
  | .mulPauli x y p => s.withOp y fun c _ => .done (s.fresh x ((s.val c).map fun q => q.mul p))
  | .addPauli x y p => s.withOp y fun c _ => .done (s.fresh x (s.val c ++ [p]))
  | .add x y z => s.withOp y fun c _ => s.withOp z fun d _ => .done (s.fresh x (s.val c ++ s.val d))
  | .sub x y z => s.withOp y fun c _ => s.withOp z fun d _ => .done (s.fresh x (s.val c ++ (s.val d).map fun p => p.scale (-1)))
  | .mul x y z => s.withOp y fun c _ => s.withOp z fun d _ =>
      .done (s.fresh x ((s.val c).flatMap fun p => (s.val d).map fun q => p.mul q))
  | .newB X ls => .done (s.freshBatch X ls)
  | .ofOps X ys => match s.lists ys with
    | none => .unspecified
    | some ls => .done (s.freshBatch X ls)
  | .shareB X Y => s.withBat Y fun cs => .done { s with bat := Function.update s.bat X (some cs) }
  | .copyB X Y => s.withBat Y fun cs => .done (s.freshBatch X (cs.map s.val))
  | .loadB X ls => s.withBat X fun cs =>
      if ls.length = cs.length then (if ∃ Y, Y ≠ X ∧ s.bat Y = some cs then .unspecified else .done (s.freshBatch X ls)) else .refused
  | .daggerB X Y => s.withBat Y fun cs => .done (s.freshBatch X (cs.map fun c => (s.val c).map PauliOp.dagger))
  | .negB X Y => s.withBat Y fun cs => .done (s.freshBatch X (cs.map fun c => (s.val c).map fun p => p.scale (-1)))
  | .addB X Y Z => s.withBat Y fun cs => s.withBat Z fun ds =>
      if cs.length = ds.length then .done (s.freshBatch X (List.zipWith (fun c d => s.val c ++ s.val d) cs ds)) else .refused
  | .mulB X Y Z => s.withBat Y fun cs => s.withBat Z fun ds =>
      if cs.length = ds.length then
        .done (s.freshBatch X (List.zipWith (fun c d => (s.val c).flatMap fun p => (s.val d).map fun q => p.mul q) cs ds))
      else .refused
  | .view x X i => s.withBat X fun cs =>
      if h : i < cs.length then .done { s with op := Function.update s.op x (some (cs[i], true)) } else .refused
  | .getAt x X i => s.withBat X fun cs => if h : i < cs.length then .done (s.fresh x (s.val cs[i])) else .refused

/-- the end of a program -/
inductive OFinal
  | finished (s : OStore)
  /-- an exception was thrown -/
  | stopped (s : OStore)
  | unspecified

/-- the effect of a program, up to the first exception -/
noncomputable def OStore.run (norm : List PauliOp → List PauliOp) (s : OStore) : List OCmd → OFinal
  | [] => .finished s
  | c :: cs => match s.step norm c with
    | .done s' => s'.run norm cs
    | .refused => .stopped s
    | .unspecified => .unspecified

/-! ## roles of the objects in a command -/

/-- the command gives the operator `x` a new value or a new place -/
def OCmd.rebinds (x : String) : OCmd → Prop
  | .new y _ | .share y _ | .copy y _ | .optimize y | .dagger y _ | .scale y _ _ | .mulPauli y _ _ | .addPauli y _ _ | .add y _ _
  | .sub y _ _ | .mul y _ _ | .view y _ _ | .getAt y _ _ => y = x
  | _ => False

/-- the command gives the batch `X` a new value -/
def OCmd.rebindsB (X : String) : OCmd → Prop
  | .newB Y _ | .ofOps Y _ | .shareB Y _ | .copyB Y _ | .loadB Y _ | .daggerB Y _ | .negB Y _ | .addB Y _ _ | .mulB Y _ _ => Y = X
  | _ => False

/-- the command changes the terms of the operator `x` in place or hands out its place -/
def OCmd.touches (x : String) : OCmd → Prop
  | .load y _ | .scaleAssign y _ | .mulPauliAssign y _ => y = x
  | .share _ y => y = x
  | _ => False

/-- the command makes `x` from other objects without sharing their terms -/
def OCmd.makes (x : String) : OCmd → Prop
  | .new y _ | .copy y _ | .optimize y | .dagger y _ | .scale y _ _ | .mulPauli y _ _ | .addPauli y _ _ | .add y _ _ | .sub y _ _
  | .mul y _ _ | .getAt y _ _ => y = x
  | _ => False

end Verif.Spec
