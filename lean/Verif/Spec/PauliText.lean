import Verif.Spec.Pauli

/-!
# The text of a Pauli operator

Words `X 3`, `y12`, `I 0`, ...: a letter in either case, then a decimal number.
-/

namespace Verif.Spec

/-- white space -/
def IsBlank (c : Char) : Prop := c ∈ [' ', '\t', '\n', '\x0b', '\x0c', '\r']

/-- the letters -/
def pauliOfLetter (c : Char) : Option Pauli1 :=
  match c with
  | 'I' => some .I
  | 'i' => some .I
  | 'X' => some .X
  | 'x' => some .X
  | 'Y' => some .Y
  | 'y' => some .Y
  | 'Z' => some .Z
  | 'z' => some .Z
  | _ => none

/-- the value of decimal digits -/
def digitsValue (ds : List Char) : Nat := ds.foldl (fun v c => 10 * v + (c.toNat - 48)) 0

/-- signs and what they do -/
inductive SignText : List Char → (Int → Int) → Prop
  | none : SignText [] id
  | plus : SignText ['+'] id
  | minus : SignText ['-'] Neg.neg

/-- the text `s` consists of the words `ws` -/
inductive PauliText : List Char → List (Pauli1 × Int) → Prop
  | blank (w : List Char) : (∀ c ∈ w, IsBlank c) → PauliText w []
  | word (w1 w2 sign ds rest : List Char) (c : Char) (P : Pauli1) (σ : Int → Int) (ws : List (Pauli1 × Int)) :
      (∀ c ∈ w1, IsBlank c) → pauliOfLetter c = some P → (∀ c ∈ w2, IsBlank c) → SignText sign σ →
      ds ≠ [] → (∀ c ∈ ds, c.isDigit = true) → digitsValue ds < 2 ^ 64 → (∀ c r, rest = c :: r → c.isDigit = false) →
      PauliText rest ws → PauliText (w1 ++ c :: (w2 ++ (sign ++ (ds ++ rest)))) ((P, σ (digitsValue ds)) :: ws)

/-- words that make an operator: the letters other than `I` stand on different qubits below 64 -/
def PauliWordsOK (ws : List (Pauli1 × Int)) : Prop :=
  (∀ a ∈ ws, a.1 ≠ .I → 0 ≤ a.2 ∧ a.2 < 64) ∧ ws.Pairwise fun a b => a.1 = .I ∨ b.1 = .I ∨ a.2 ≠ b.2

end Verif.Spec
