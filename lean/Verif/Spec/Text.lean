import Verif.Spec.Desc
import Verif.Model.Qasm

/-! # Specification: texts as lines -/

namespace Verif.Spec
open Verif Verif.Model

/-- the lines of a text -/
noncomputable def textLines (s : List Char) : List (List Char) := s.splitOn '\n'

/-- the printer writes digits, letters, points and signs only -/
def PrintsNumbers (num : ℝ → List Char) : Prop := ∀ x, ∀ c ∈ num x, c.isAlphanum = true ∨ c ∈ ['.', '-', '+']

/-- a natural number -/
def numeral (n : Nat) : List Char := Nat.toDigits 10 n

/-- a complex number -/
def complexNumeral (num : ℝ → List Char) (z : ℂ) : List Char := t! "(" ++ num z.re ++ t! "," ++ num z.im ++ t! ")"

/-- the bits of a basis state, qubit `n - 1` first, qubit 0 last -/
def basisLabel (n i : Nat) : List Char := (List.range n).reverse.map fun k => if i.testBit k then '1' else '0'

/-- `{1, 2, 3}` -/
def braces (xs : List Nat) : List Char := t! "{" ++ (t! ", ").intercalate (xs.map numeral) ++ t! "}"

/-- the line of amplitude `i` -/
def amplitudeLine (num : ℝ → List Char) (n : Nat) (amp : BitVec 64 → ℂ) (i : Nat) : List Char :=
  t! "  " ++ basisLabel n i ++ t! " : " ++ complexNumeral num (amp (BitVec.ofNat 64 i))

/-- the line of element `(i, j)` of a density matrix -/
def elementLine (num : ℝ → List Char) (n : Nat) (m : BitVec 64 × BitVec 64 → ℂ) (i j : Nat) : List Char :=
  t! "  (" ++ basisLabel n i ++ t! ", " ++ basisLabel n j ++ t! ") : " ++ complexNumeral num (m (BitVec.ofNat 64 i, BitVec.ofNat 64 j))

/-- the first lines of the text of a state -/
def sizeLines (n : Nat) : List (List Char) := [t! "Qubit Count : " ++ numeral n, t! "Dimension : " ++ numeral (2 ^ n)]

/-- the line of a Pauli operator whose letters are written `s` -/
def termLine (num : ℝ → List Char) (coef : ℂ) (s : List Char) : List Char := complexNumeral num coef ++ t! " \"" ++ s ++ t! "\""

/-- the class of a gate -/
def gateTitle : GateDesc → List Char
  | .ident => t! "I"
  | .globalPhase _ _ _ => t! "GlobalPhase"
  | .one .X _ _ _ => t! "X"
  | .one .Y _ _ _ => t! "Y"
  | .one .Z _ _ _ => t! "Z"
  | .one .H _ _ _ => t! "H"
  | .one .S _ _ _ => t! "S"
  | .one .Sdag _ _ _ => t! "Sdag"
  | .one .T _ _ _ => t! "T"
  | .one .Tdag _ _ _ => t! "Tdag"
  | .one .SqrtX _ _ _ => t! "SqrtX"
  | .one .SqrtXdag _ _ _ => t! "SqrtXdag"
  | .one .SqrtY _ _ _ => t! "SqrtY"
  | .one .SqrtYdag _ _ _ => t! "SqrtYdag"
  | .one .P0 _ _ _ => t! "P0"
  | .one .P1 _ _ _ => t! "P1"
  | .one (.RX _) _ _ _ => t! "RX"
  | .one (.RY _) _ _ _ => t! "RY"
  | .one (.RZ _) _ _ _ => t! "RZ"
  | .one (.U1 _) _ _ _ => t! "U1"
  | .one (.U2 _ _) _ _ _ => t! "U2"
  | .one (.U3 _ _ _) _ _ _ => t! "U3"
  | .swap _ _ _ _ => t! "Swap"
  | .ecr _ _ _ _ => t! "Ecr"
  | .perm _ => t! "Permutation"
  | .dense _ _ _ _ _ => t! "DenseMatrix"
  | .sparse _ _ _ _ => t! "SparseMatrix"
  | .pauli _ _ _ => t! "Pauli"
  | .pauliRot _ _ _ _ => t! "PauliRotation"

/-- the real parameters of a gate, in the order of the factory function -/
def gateReals : GateDesc → List (List Char × ℝ)
  | .globalPhase p _ _ => [(t! "Phase", p)]
  | .one (.RX a) _ _ _ => [(t! "Angle", a)]
  | .one (.RY a) _ _ _ => [(t! "Angle", a)]
  | .one (.RZ a) _ _ _ => [(t! "Angle", a)]
  | .one (.U1 l) _ _ _ => [(t! "Lambda", l)]
  | .one (.U2 p l) _ _ _ => [(t! "Phi", p), (t! "Lambda", l)]
  | .one (.U3 t p l) _ _ _ => [(t! "Theta", t), (t! "Phi", p), (t! "Lambda", l)]
  | .pauliRot _ a _ _ => [(t! "Angle", a)]
  | _ => []

/-- the lines of the real parameters -/
def realLines (num : ℝ → List Char) (d : GateDesc) : List (List Char) := (gateReals d).map fun a => t! "  " ++ a.1 ++ t! ": " ++ num a.2

/-- the lines of the other parameters -/
def otherLines : GateDesc → List (List Char)
  | .ecr c t _ _ => [t! "  Physical Control Qubit: " ++ braces [c], t! "  Physical Target Qubit: " ++ braces [t]]
  | .perm dst => [t! "Permutation: [" ++ (t! ", ").intercalate (dst.map numeral) ++ t! "]"]
  | _ => []

/-- the lines of the qubits -/
def qubitLines (targets controls values : List Nat) : List (List Char) :=
  [t! "  Target Qubits: " ++ braces targets, t! "  Control Qubits: " ++ braces controls, t! "  Control Value: " ++ braces values]

/-- the first line -/
def titleLine (d : GateDesc) : List Char := t! "Gate Type: " ++ gateTitle d

/-- not a Pauli gate -/
def NotPauli : GateDesc → Prop
  | .pauli _ _ _ => False
  | .pauliRot _ _ _ _ => False
  | _ => True

/-- not a `U2` gate -/
def NotU2 : GateDesc → Prop
  | .one (.U2 _ _) _ _ _ => False
  | _ => True

/-- the real parameters can be told apart by the printer -/
def Separates (num : ℝ → List Char) (d d' : GateDesc) : Prop := ∀ a ∈ gateReals d, ∀ b ∈ gateReals d', num a.2 = num b.2 → a.2 = b.2

/-- the classes whose text names all arguments -/
def Named : GateDesc → Prop
  | .dense _ _ _ _ _ => False
  | .sparse _ _ _ _ => False
  | .pauli _ _ _ => False
  | .pauliRot _ _ _ _ => False
  | _ => True

end Verif.Spec
