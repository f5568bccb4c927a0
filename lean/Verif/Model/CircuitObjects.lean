import Verif.Model.Circuit
import Verif.Spec.CircuitObjects

/-!
# Circuits as objects

Model of the member functions of `Circuit` that change it (/repo/include/scaluq/circuit/circuit.hpp:63-126, /repo/src/circuit/circuit.cpp:51-74,
293-307) on the level of `std::vector`: capacity and reallocation are kept, because `add_circuit` runs over a vector with iterators while
it may be appending to the very same vector.  `grow` is the allocation policy of the library (the capacity obtained when `n` elements are
needed).  An element that was moved from is `none`.
-/

namespace Verif.Model
open Verif Verif.Spec

/-- `std::vector`: its elements, its capacity and how often its storage was replaced (iterators of an older storage are invalid) -/
structure Vec (α : Type) where
  elems : List α
  cap : Nat
  gen : Nat

variable {α : Type}

/-- a vector without elements -/
def Vec.empty : Vec α := ⟨[], 0, 0⟩

/-- `reserve(n)`: the storage is replaced only if it is too small -/
def Vec.reserve (grow : Nat → Nat) (v : Vec α) (n : Nat) : Vec α := if n ≤ v.cap then v else ⟨v.elems, grow n, v.gen + 1⟩

/-- `push_back(a)` -/
def Vec.push (grow : Nat → Nat) (v : Vec α) (a : α) : Vec α :=
  if v.elems.length < v.cap then ⟨v.elems ++ [a], v.cap, v.gen⟩ else ⟨v.elems ++ [a], grow (v.elems.length + 1), v.gen + 1⟩

/-- `v.back() = a`; undefined for an empty vector -/
def Vec.setBack (v : Vec α) (a : α) : Res (Vec α) :=
  if v.elems = [] then .error (.ub "back() of an empty vector") else .ok { v with elems := v.elems.dropLast ++ [a] }

/-- copy assignment -/
def Vec.assign (grow : Nat → Nat) (v w : Vec α) : Vec α := { v.reserve grow w.elems.length with elems := w.elems }

/-- `*it` for the iterator at position `i` of a storage that was number `gen` -/
def Vec.deref (v : Vec α) (gen i : Nat) : Res α :=
  if v.gen ≠ gen then .error (.ub "iterator into a replaced storage")
  else match v.elems[i]? with
    | none => .error (.ub "iterator out of range")
    | some a => .ok a

/-- the loop `for (const auto& e : src) v.push_back(e);` (/repo/src/circuit/circuit.cpp:56-58, 59-61) with `k` elements to go, the iterator
at position `i`; with `self` the vector `src` is `v` itself -/
def Vec.appendLoop (grow : Nat → Nat) (self : Bool) (src : Vec α) (gen : Nat) : Nat → Nat → Vec α → Res (Vec α)
  | 0, _, v => .ok v
  | k + 1, i, v => do
    let a ← (if self then v else src).deref gen i
    Vec.appendLoop grow self src gen k (i + 1) (v.push grow a)

/-- the whole loop: `begin` and `end` are taken once -/
def Vec.append (grow : Nat → Nat) (self : Bool) (v src : Vec α) : Res (Vec α) :=
  let s := if self then v else src
  Vec.appendLoop grow self src s.gen s.elems.length 0 v

/-- the loop `for (auto&& e : src) v.push_back(std::move(e));` (/repo/src/circuit/circuit.cpp:68-70, 71-73); the result is `v` and `src` -/
def Vec.moveLoop (grow : Nat → Nat) (self : Bool) (gen : Nat) : Nat → Nat → Vec (Option α) → Vec (Option α) → Res (Vec (Option α) × Vec (Option α))
  | 0, _, v, src => .ok (v, src)
  | k + 1, i, v, src => do
    let a ← (if self then v else src).deref gen i
    if self then
      let v' := Vec.push grow { v with elems := v.elems.set i none } a
      Vec.moveLoop grow self gen k (i + 1) v' src
    else Vec.moveLoop grow self gen k (i + 1) (v.push grow a) { src with elems := src.elems.set i none }

/-- the whole loop with moves -/
def Vec.moveAppend (grow : Nat → Nat) (self : Bool) (v src : Vec (Option α)) : Res (Vec (Option α) × Vec (Option α)) :=
  let s := if self then v else src
  Vec.moveLoop grow self s.gen s.elems.length 0 v src

/-- `Circuit` (/repo/include/scaluq/circuit/circuit.hpp:204-205) -/
structure CircObj where
  gates : Vec (Option Item)
  conds : Vec (Option (Option Condition))

/-- `Circuit()` -/
def CircObj.new : CircObj := ⟨Vec.empty, Vec.empty⟩

/-- /repo/include/scaluq/circuit/circuit.hpp:63-66 and 67-70 -/
def CircObj.addItem (grow : Nat → Nat) (C : CircObj) (g : Item) : CircObj := ⟨C.gates.push grow (some g), C.conds.push grow (some none)⟩

/-- /repo/include/scaluq/circuit/circuit.hpp:71-74 and 83-88 -/
def CircObj.addConditional (grow : Nat → Nat) (C : CircObj) (g : Item) (c : Condition) : Res CircObj := do
  let C' := C.addItem grow g
  let conds ← C'.conds.setBack (some (some c))
  .ok { C' with conds := conds }

/-- /repo/src/circuit/circuit.cpp:293-307 `copy`; `_classical_conditions` is assigned as a whole -/
def CircObj.copy (grow : Nat → Nat) (C : CircObj) : Res CircObj := do
  let g := Vec.empty.reserve grow C.gates.elems.length
  let gates ← g.append grow false C.gates
  .ok ⟨gates, Vec.empty.assign grow C.conds⟩

/-- /repo/src/circuit/circuit.cpp:51-62 `add_circuit(const Circuit&)`; with `self` the argument is the object itself -/
def CircObj.addCircuit (grow : Nat → Nat) (self : Bool) (C D : CircObj) : Res CircObj := do
  let D := if self then C else D
  let g := C.gates.reserve grow (C.gates.elems.length + D.gates.elems.length)
  let c := C.conds.reserve grow (C.conds.elems.length + D.conds.elems.length)
  let gates ← g.append grow self D.gates
  let conds ← c.append grow self D.conds
  .ok ⟨gates, conds⟩

/-- /repo/src/circuit/circuit.cpp:63-74 `add_circuit(Circuit&&)`; the object and the argument afterwards -/
def CircObj.addCircuitMove (grow : Nat → Nat) (self : Bool) (C D : CircObj) : Res (CircObj × CircObj) := do
  let D := if self then C else D
  let g := C.gates.reserve grow (C.gates.elems.length + D.gates.elems.length)
  let c := C.conds.reserve grow (C.conds.elems.length + D.conds.elems.length)
  let (gates, gates') ← g.moveAppend grow self D.gates
  let (conds, conds') ← c.moveAppend grow self D.conds
  .ok (⟨gates, conds⟩, if self then ⟨gates, conds⟩ else ⟨gates', conds'⟩)

/-- the memory and the names -/
structure CircHeap where
  objs : List CircObj
  name : String → Option Nat

/-- no objects -/
def CircHeap.empty : CircHeap := ⟨[], fun _ => none⟩

/-- the object of a name -/
def CircHeap.find (h : CircHeap) (x : String) : Res (Nat × CircObj) :=
  match h.name x with
  | none => .error (.ub "no such object")
  | some k => match h.objs[k]? with
    | none => .error (.ub "dangling pointer")
    | some C => .ok (k, C)

/-- one more object -/
def CircHeap.fresh (h : CircHeap) (x : String) (C : CircObj) : CircHeap :=
  ⟨h.objs ++ [C], Function.update h.name x (some h.objs.length)⟩

/-- an object is changed -/
def CircHeap.put (h : CircHeap) (k : Nat) (C : CircObj) : CircHeap := { h with objs := h.objs.set k C }

/-- one command (the lines are cited at the functions) -/
def CircHeap.step (grow : Nat → Nat) (h : CircHeap) : CircCmd → Res CircHeap
  | .new x => .ok (h.fresh x CircObj.new)
  | .same x y => do
    let (k, _) ← h.find y
    .ok { h with name := Function.update h.name x (some k) }
  | .copy x y => do
    let (_, C) ← h.find y
    let D ← C.copy grow
    .ok (h.fresh x D)
  | .assign x y => do
    let (k, C) ← h.find x
    let (_, D) ← h.find y
    .ok (h.put k ⟨C.gates.assign grow D.gates, C.conds.assign grow D.conds⟩)
  | .addGate x g => do
    let (k, C) ← h.find x
    .ok (h.put k (C.addItem grow (.inl g)))
  | .addParamGate x g key => do
    let (k, C) ← h.find x
    .ok (h.put k (C.addItem grow (.inr (g, key))))
  | .addConditionalGate x g c => do
    let (k, C) ← h.find x
    let C' ← C.addConditional grow (.inl g) c
    .ok (h.put k C')
  | .addConditionalParamGate x g key c => do
    let (k, C) ← h.find x
    let C' ← C.addConditional grow (.inr (g, key)) c
    .ok (h.put k C')
  | .addCircuit x y => do
    let (k, C) ← h.find x
    let (k', D) ← h.find y
    let C' ← C.addCircuit grow (decide (k = k')) D
    .ok (h.put k C')
  | .addCircuitMove x y => do
    let (k, C) ← h.find x
    let (k', D) ← h.find y
    let (C', D') ← C.addCircuitMove grow (decide (k = k')) D
    .ok ((h.put k C').put k' D')

/-- a program -/
def CircHeap.run (grow : Nat → Nat) (h : CircHeap) : List CircCmd → Res CircHeap
  | [] => .ok h
  | c :: cs => do
    let h' ← h.step grow c
    h'.run grow cs

/-! ## observers -/

/-- the value of an element; a moved-from element has none -/
def movedFrom {β : Type} : Option β → Res β
  | none => .error (.ub "value of a moved-from object")
  | some a => .ok a

/-- `n_gates()` (/repo/include/scaluq/circuit/circuit.hpp:36) -/
def CircObj.nGates (C : CircObj) : Nat := C.gates.elems.length

/-- `get_gate_at(idx)` (/repo/include/scaluq/circuit/circuit.hpp:38-43) -/
def CircObj.gateAt (C : CircObj) (i : Nat) : Res Item :=
  if i ≥ C.gates.elems.length then .error (.throw "Circuit::get_gate_at(std::uint64_t): index out of bounds")
  else match C.gates.elems[i]? with
    | none => .error (.ub "_gate_list[idx] out of range")
    | some a => movedFrom a

/-- `get_param_key_at(idx)` (/repo/include/scaluq/circuit/circuit.hpp:44-52) -/
def CircObj.paramKeyAt (C : CircObj) (i : Nat) : Res (Option String) :=
  if i ≥ C.gates.elems.length then .error (.throw "Circuit::get_parameter_key(std::uint64_t): index out of bounds")
  else match C.gates.elems[i]? with
    | none => .error (.ub "_gate_list[idx] out of range")
    | some a => do
      match ← movedFrom a with
      | .inl _ => .ok none
      | .inr (_, key) => .ok (some key)

/-- `get_classical_condition_at(idx)` (/repo/include/scaluq/circuit/circuit.hpp:53-60): compared with the length of the other vector -/
def CircObj.conditionAt (C : CircObj) (i : Nat) : Res (Option Condition) :=
  if i ≥ C.gates.elems.length then .error (.throw "Circuit::get_classical_condition_at(std::uint64_t): index out of bounds")
  else match C.conds.elems[i]? with
    | none => .error (.ub "_classical_conditions[idx] out of range")
    | some a => movedFrom a

/-- the value that `update_quantum_state` and all other functions of `Circuit` work with -/
def CircObj.value (C : CircObj) : Res Circuit := do
  let gates ← C.gates.elems.mapM movedFrom
  let conds ← C.conds.elems.mapM movedFrom
  .ok ⟨gates, conds⟩

end Verif.Model
