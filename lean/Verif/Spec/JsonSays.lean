import Mathlib.Data.Int.ModEq
import Verif.Model.Json

/-! # Specification: what a JSON value says about a gate or a circuit

Field by field, without reference to the readers; the gates are the ones the factory functions make from the fields. -/

namespace Verif.Spec
open Verif Verif.Model

/-! ## fields -/

/-- the object `j` has an entry with this key and value -/
def Entry (j : Json) (key : Text) (v : Json) : Prop := ∃ fields, j = .obj fields ∧ fields.lookup key = some v

/-- a number as an unsigned 64-bit integer: signed integers modulo `2^64`, floating point numbers without their fractional part -/
inductive IntSays : Json → Nat → Prop
  | unsigned (n : Nat) : IntSays (.uint n) n
  | signed (z : Int) (n : Nat) : n < 2 ^ 64 → (n : ℤ) ≡ z [ZMOD 2 ^ 64] → IntSays (.int z) n
  | real (x : ℝ) (n : Nat) : -1 < x → x < n + 1 → n < 2 ^ 64 → (n ≤ x ∨ n = 0) → IntSays (.real x) n

/-- a number as a real number -/
inductive RealSays : Json → ℝ → Prop
  | unsigned (n : Nat) : RealSays (.uint n) n
  | signed (z : Int) : RealSays (.int z) z
  | real (x : ℝ) : RealSays (.real x) x

/-- an entry with a list of integers -/
def ListEntry (j : Json) (key : Text) (l : List Nat) : Prop := ∃ vs, Entry j key (.arr vs) ∧ List.Forall₂ (fun n v => IntSays v n) l vs

/-- an entry with a list of real numbers -/
def RealsEntry (j : Json) (key : Text) (l : List ℝ) : Prop := ∃ vs, Entry j key (.arr vs) ∧ List.Forall₂ (fun x v => RealSays v x) l vs

/-- an entry with an integer -/
def IntEntry (j : Json) (key : Text) (n : Nat) : Prop := ∃ v, Entry j key v ∧ IntSays v n

/-- an entry with a real number -/
def RealEntry (j : Json) (key : Text) (x : ℝ) : Prop := ∃ v, Entry j key v ∧ RealSays v x

/-- an entry with a text -/
def TextEntry (j : Json) (key s : Text) : Prop := Entry j key (.str s)

/-- the control qubits and their values; values without control qubit are ignored -/
def ControlsSay (j : Json) (cs vs : List Nat) : Prop :=
  ListEntry j (t! "control") cs ∧ vs.length = cs.length ∧ ∃ rest, ListEntry j (t! "control_value") (vs ++ rest)

/-- a Pauli operator -/
def PauliSays (j : Json) (p : PauliOp) : Prop :=
  ∃ s c re im, TextEntry j (t! "pauli_string") s ∧ Entry j (t! "coef") c ∧ RealEntry c (t! "real") re ∧ RealEntry c (t! "imag") im ∧
    PauliOp.ofString s ⟨re, im⟩ = .ok p

/-! ## gates -/

/-- one-qubit gates: name and angles -/
inductive KindSays (j : Json) : Gate1 → Prop
  | X : TextEntry j (t! "type") (t! "X") → KindSays j .X
  | Y : TextEntry j (t! "type") (t! "Y") → KindSays j .Y
  | Z : TextEntry j (t! "type") (t! "Z") → KindSays j .Z
  | H : TextEntry j (t! "type") (t! "H") → KindSays j .H
  | S : TextEntry j (t! "type") (t! "S") → KindSays j .S
  | Sdag : TextEntry j (t! "type") (t! "Sdag") → KindSays j .Sdag
  | T : TextEntry j (t! "type") (t! "T") → KindSays j .T
  | Tdag : TextEntry j (t! "type") (t! "Tdag") → KindSays j .Tdag
  | SqrtX : TextEntry j (t! "type") (t! "SqrtX") → KindSays j .SqrtX
  | SqrtXdag : TextEntry j (t! "type") (t! "SqrtXdag") → KindSays j .SqrtXdag
  | SqrtY : TextEntry j (t! "type") (t! "SqrtY") → KindSays j .SqrtY
  | SqrtYdag : TextEntry j (t! "type") (t! "SqrtYdag") → KindSays j .SqrtYdag
  | RX (a : ℝ) : TextEntry j (t! "type") (t! "RX") → RealEntry j (t! "angle") a → KindSays j (.RX a)
  | RY (a : ℝ) : TextEntry j (t! "type") (t! "RY") → RealEntry j (t! "angle") a → KindSays j (.RY a)
  | RZ (a : ℝ) : TextEntry j (t! "type") (t! "RZ") → RealEntry j (t! "angle") a → KindSays j (.RZ a)
  | U1 (lam : ℝ) : TextEntry j (t! "type") (t! "U1") → RealEntry j (t! "lambda") lam → KindSays j (.U1 lam)
  | U2 (phi lam : ℝ) : TextEntry j (t! "type") (t! "U2") → RealEntry j (t! "phi") phi → RealEntry j (t! "lambda") lam → KindSays j (.U2 phi lam)
  | U3 (theta phi lam : ℝ) : TextEntry j (t! "type") (t! "U3") → RealEntry j (t! "theta") theta → RealEntry j (t! "phi") phi →
      RealEntry j (t! "lambda") lam → KindSays j (.U3 theta phi lam)

/-- gates without randomness, as arguments of the factory functions -/
inductive DescSays (j : Json) : GateDesc → Prop
  | ident : TextEntry j (t! "type") (t! "I") → DescSays j .ident
  | globalPhase (phase : ℝ) (cs vs : List Nat) : TextEntry j (t! "type") (t! "GlobalPhase") → RealEntry j (t! "phase") phase → ControlsSay j cs vs →
      DescSays j (.globalPhase phase cs vs)
  | one (k : Gate1) (q : Nat) (cs vs : List Nat) : KindSays j k → ListEntry j (t! "target") [q] → ControlsSay j cs vs → DescSays j (.one k q cs vs)
  | swap (a b : Nat) (cs vs : List Nat) : TextEntry j (t! "type") (t! "Swap") → ListEntry j (t! "target") [a, b] → ControlsSay j cs vs →
      DescSays j (.swap a b cs vs)
  | ecr (a b : Nat) (cs vs : List Nat) : TextEntry j (t! "type") (t! "Ecr") →
      (ListEntry j (t! "target") [a, b] ∨ ListEntry j (t! "target") [b, a]) → ListEntry j (t! "physical_control") [a] →
      ListEntry j (t! "physical_target") [b] → ControlsSay j cs vs → DescSays j (.ecr a b cs vs)
  | perm (dst : List Nat) : TextEntry j (t! "type") (t! "Permutation") → ListEntry j (t! "dst") dst → DescSays j (.perm dst)
  | pauli (v : Json) (p : PauliOp) (cs vs : List Nat) : TextEntry j (t! "type") (t! "Pauli") → Entry j (t! "pauli") v → PauliSays v p →
      ControlsSay j cs vs → DescSays j (.pauli p cs vs)
  | pauliRot (v : Json) (p : PauliOp) (angle : ℝ) (cs vs : List Nat) : TextEntry j (t! "type") (t! "PauliRotation") → Entry j (t! "pauli") v →
      PauliSays v p → RealEntry j (t! "angle") angle → ControlsSay j cs vs → DescSays j (.pauliRot p angle cs vs)

/-- gates -/
inductive GateSays : Json → Gate → Prop
  | det {j : Json} {d : GateDesc} {g : UGate} : DescSays j d → d.build = .ok g → GateSays j (.det g)
  | measurement {j : Json} {q cbit : Nat} {reset : Bool} {g : MeasGate} : TextEntry j (t! "type") (t! "Measurement") →
      ListEntry j (t! "target") [q] → IntEntry j (t! "classical_bit") cbit →
      (Entry j (t! "reset") (.bool reset) ∨ (reset = false ∧ ∀ v, ¬ Entry j (t! "reset") v)) → mkMeas q cbit reset = .ok g → GateSays j (.meas g)
  | probabilistic {j : Json} {ds : List ℝ} {vs : List Json} {gs : List Gate} {g : Gate} : TextEntry j (t! "type") (t! "Probabilistic") →
      RealsEntry j (t! "distribution") ds → Entry j (t! "gate_list") (.arr vs) → gs.length = vs.length →
      (∀ (i : Nat) (v : Json) (x : Gate), vs[i]? = some v → gs[i]? = some x → GateSays v x) → mkProbabilistic (ds.map some) gs = .ok g → GateSays j g

/-- the names of parametric rotations -/
inductive AxisSays (j : Json) : RotAxis → Prop
  | X : TextEntry j (t! "type") (t! "ParamRX") → AxisSays j .X
  | Y : TextEntry j (t! "type") (t! "ParamRY") → AxisSays j .Y
  | Z : TextEntry j (t! "type") (t! "ParamRZ") → AxisSays j .Z

/-- parametric gates -/
inductive ParamSays : Json → PGate → Prop
  | axis {j : Json} {a : RotAxis} {q : Nat} {k : ℝ} {cs vs : List Nat} {r : PRot} : AxisSays j a → ListEntry j (t! "target") [q] →
      RealEntry j (t! "param_coef") k → ControlsSay j cs vs → mkAxis a q k cs vs = .ok r → ParamSays j (.rot r)
  | pauli {j v : Json} {p : PauliOp} {k : ℝ} {cs vs : List Nat} {r : PRot} : TextEntry j (t! "type") (t! "ParamPauliRotation") →
      Entry j (t! "pauli") v → PauliSays v p → RealEntry j (t! "param_coef") k → ControlsSay j cs vs → mkParamPauli p k cs vs = .ok r → ParamSays j (.rot r)
  | probabilistic {j : Json} {ds : List ℝ} {vs : List Json} {gs : List (Gate ⊕ PGate)} {g : PGate} :
      TextEntry j (t! "type") (t! "ParamProbabilistic") → RealsEntry j (t! "distribution") ds → Entry j (t! "gate_list") (.arr vs) →
      gs.length = vs.length → (∀ (i : Nat) (v : Json) (x : Gate), vs[i]? = some v → gs[i]? = some (.inl x) → GateSays v x) →
      (∀ (i : Nat) (v : Json) (x : PGate), vs[i]? = some v → gs[i]? = some (.inr x) → ParamSays v x) → mkParamProbabilistic (ds.map some) gs = .ok g → ParamSays j g

/-! ## circuits -/

/-- one entry of a circuit: with a key it is a parametric gate -/
inductive ItemSays : Json → Item → Prop
  | gate {j v : Json} {g : Gate} : (∀ w, ¬ Entry j (t! "key") w) → Entry j (t! "gate") v → GateSays v g → ItemSays j (.inl g)
  | param {j v : Json} {g : PGate} {key : String} : TextEntry j (t! "key") key.toList → Entry j (t! "gate") v → ParamSays v g → ItemSays j (.inr (g, key))

/-- the entries of a circuit; there are no conditions -/
def CircuitSays (j : Json) (C : Circuit) : Prop :=
  ∃ vs, Entry j (t! "gate_list") (.arr vs) ∧ List.Forall₂ (fun g v => ItemSays v g) C.gates vs ∧ C.conds = List.replicate C.gates.length none

/-! ## what the readers do not check -/

/-- the types of gates with exactly one target -/
def targetTypes : List Text :=
  [(t! "X"), (t! "Y"), (t! "Z"), (t! "H"), (t! "S"), (t! "Sdag"), (t! "T"), (t! "Tdag"), (t! "SqrtX"), (t! "SqrtXdag"), (t! "SqrtY"),
    (t! "SqrtYdag"), (t! "RX"), (t! "RY"), (t! "RZ"), (t! "U1"), (t! "U2"), (t! "U3"), (t! "Measurement"), (t! "ParamRX"), (t! "ParamRY"),
    (t! "ParamRZ")]

/-- the numbers of targets are right, and lists of gates are arrays -/
structure Arity (j : Json) : Prop where
  one : ∀ name ts, TextEntry j (t! "type") name → name ∈ targetTypes → ListEntry j (t! "target") ts → ts.length = 1
  two : ∀ ts, TextEntry j (t! "type") (t! "Swap") → ListEntry j (t! "target") ts → ts.length = 2
  ecr : ∀ ts cs ps, TextEntry j (t! "type") (t! "Ecr") → ListEntry j (t! "target") ts → ListEntry j (t! "physical_control") cs →
    ListEntry j (t! "physical_target") ps → ∃ a b, cs = [a] ∧ ps = [b] ∧ (ts = [a, b] ∨ ts = [b, a])
  array : ∀ v, Entry j (t! "gate_list") v → ∃ vs, v = .arr vs

/-- `j` and the gates in it, at any depth -/
inductive PartOf (j : Json) : Json → Prop
  | self : PartOf j j
  | entry {x y : Json} {vs : List Json} : PartOf j x → Entry x (t! "gate_list") (.arr vs) → y ∈ vs → PartOf j y

end Verif.Spec
