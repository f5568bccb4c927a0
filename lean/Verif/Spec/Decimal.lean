import Mathlib.Data.Real.Basic
import Mathlib.Algebra.Order.Field.Power
import Mathlib.Algebra.Order.Ring.Abs
import Mathlib.Tactic.Linarith
import Mathlib.Tactic.NormNum
import Mathlib.Tactic.Positivity

/-!
# Decimal literals and double-precision numbers

What the C and C++ standards (with IEEE 754 and correct rounding) say about `strtod` and about output with 17 digits.
-/

namespace Verif.Spec

/-- a finite double-precision number -/
def IsDouble (x : ℝ) : Prop := ∃ m e : ℤ, |m| < 2 ^ 53 ∧ -1074 ≤ e ∧ e ≤ 971 ∧ x = (m : ℝ) * (2 : ℝ) ^ e

/-- a double nearest to `v` -/
def NearestDouble (v r : ℝ) : Prop := IsDouble r ∧ ∀ y, IsDouble y → |v - r| ≤ |v - y|

/-- an unsigned decimal literal: digits, possibly a fraction, possibly an exponent with a sign (`true`: minus) -/
structure Literal where
  whole : List Char
  frac : Option (List Char)
  exp : Option (Bool × List Char)

/-- digits only, and at least one where the syntax asks for one -/
def Literal.WellFormed (l : Literal) : Prop :=
  l.whole ≠ [] ∧ l.whole.all Char.isDigit = true ∧ (∀ f, l.frac = some f → f ≠ [] ∧ f.all Char.isDigit = true) ∧
  ∀ s ds, l.exp = some (s, ds) → ds ≠ [] ∧ ds.all Char.isDigit = true

/-- the text of a literal -/
def Literal.text (l : Literal) : List Char :=
  l.whole ++ (match l.frac with
    | none => []
    | some f => '.' :: f) ++
  match l.exp with
  | none => []
  | some (s, ds) => 'e' :: (if s then '-' else '+') :: ds

/-- the number written by decimal digits -/
def natOfDigits (ds : List Char) : Nat := ds.foldl (fun n c => 10 * n + (c.toNat - 48)) 0

/-- the value of a literal -/
noncomputable def Literal.value (l : Literal) : ℝ :=
  natOfDigits (l.whole ++ l.frac.getD []) * (10 : ℝ) ^ (-((l.frac.getD []).length : ℤ) + match l.exp with
    | none => 0
    | some (s, ds) => if s then -(natOfDigits ds : ℤ) else natOfDigits ds)

/-- the number `v` is `x` rounded to 17 significant decimal digits -/
def Rounded17 (x v : ℝ) : Prop := ∃ k : ℤ, (10 : ℝ) ^ k ≤ x ∧ x < (10 : ℝ) ^ (k + 1) ∧ |v - x| ≤ (10 : ℝ) ^ (k - 16) / 2

/-- a text that cannot continue a literal -/
def Stops (rest : List Char) : Prop :=
  ∀ c ∈ rest.head?, c.isDigit = false ∧ c ≠ '.' ∧ c ≠ 'e' ∧ c ≠ 'E' ∧ c ≠ 'x' ∧ c ≠ 'X'

/-- `strtod` (value and number of characters read) reads literals up to their end and rounds to nearest; beyond
`2 ^ 1024 - 2 ^ 970` the result is infinite and nothing is said -/
def StrtodOK (f : List Char → ℝ × Nat) : Prop :=
  ∀ (l : Literal) (rest : List Char), l.WellFormed → Stops rest → l.value < 2 ^ 1024 - 2 ^ 970 →
    (f (l.text ++ rest)).2 = l.text.length ∧ NearestDouble l.value (f (l.text ++ rest)).1

/-- output with `setprecision(17)`: a literal that is the number rounded to 17 digits, with a minus sign if it is negative; zero may carry
a sign -/
def FormatOK (f : ℝ → List Char) : Prop :=
  (∀ x, IsDouble x → x ≠ 0 → ∃ l : Literal, l.WellFormed ∧ Rounded17 |x| l.value ∧ f x = (if x < 0 then ['-'] else []) ++ l.text) ∧
  ∃ l : Literal, l.WellFormed ∧ l.value = 0 ∧ (f 0 = l.text ∨ f 0 = '-' :: l.text)

end Verif.Spec
