import Verif.Spec.QasmText

/-! # OpenQASM 2.0: the texts the reader accepts

The grammar of `QasmText.lean` made looser in the places where the reader (/repo/src/qasm/qasm2.cpp) does not insist: numbers are whatever `strtod` reads
(also hexadecimal ones), a list may end with a comma, names of registers are arbitrary texts without brackets (also empty), integers may carry a sign and
may be followed by a character `'\0'` and anything after it.  Everything else is as in OpenQASM: the order of the parts, the brackets, parentheses and
commas, the arrow, the keywords, the operators of angles and what they bind to. -/

namespace Verif.Spec
open Verif Verif.Model

/-! ## integers and operands -/

/-- the value of a number with or without minus sign as a 64-bit integer, the way of `strtoull` -/
def clamp64 (negative : Bool) (n : Nat) : Nat := if 2 ^ 64 ≤ n then 2 ^ 64 - 1 else if negative then (2 ^ 64 - n) % 2 ^ 64 else n

/-- sign, digits, and possibly a character `'\0'` with any text behind it -/
inductive IntText : Nat → List Char → Prop
  | mk (n : Nat) (sign ds rest : List Char) : sign ∈ [[], ['+'], ['-']] → Digits n ds → (∀ c ∈ rest.head?, c = '\x00') →
      IntText (clamp64 (sign == ['-']) n) (sign ++ (ds ++ rest))

/-- a text that neither begins nor ends with white space -/
def Tight (s : List Char) : Prop :=
  (∀ c ∈ s.head?, c ∉ [' ', '\t', '\n', '\x0b', '\x0c', '\r']) ∧ ∀ c ∈ s.getLast?, c ∉ [' ', '\t', '\n', '\x0b', '\x0c', '\r']

/-- `name [ integer ]` -/
inductive LooseElement : List Char × Nat → List Char → Prop
  | mk (name : List Char) (i : Nat) (g g' g'' ds : List Char) : Tight name → '[' ∉ name → ']' ∉ name → Gap g → Gap g' → Gap g'' → IntText i ds → ']' ∉ ds →
      LooseElement (name, i) (name ++ g ++ '[' :: (g' ++ (ds ++ g'') ++ [']']))

/-- an operand of `measure` -/
inductive LooseOperand : QOperand → List Char → Prop
  | element (name : List Char) (i : Nat) (s : List Char) : LooseElement (name, i) s → LooseOperand ⟨name, some i⟩ s
  | whole (name : List Char) : Tight name → '[' ∉ name → ']' ∉ name → LooseOperand ⟨name, none⟩ name

/-! ## angles -/

/-- the text `s` in front of `rest` is an angle with value `x`; a number extends as far as `strtod` reads -/
inductive AngleReads (f : List Char → ℝ × Nat) : Level → ℝ → List Char → List Char → Prop
  | number (c : Char) (s rest : List Char) (x : ℝ) : c.isAlpha = false → c ≠ '_' → c ≠ '(' → c ∉ [' ', '\t', '\n', '\x0b', '\x0c', '\r'] →
      f (c :: (s ++ rest)) = (x, s.length + 1) → AngleReads f .atom x (c :: s) rest
  | pi (rest : List Char) : (∀ c ∈ rest.head?, c.isAlphanum = false ∧ c ≠ '_') → AngleReads f .atom Real.pi ['p', 'i'] rest
  | parens (x : ℝ) (s rest : List Char) : AngleReads f .sum x s (')' :: rest) → AngleReads f .atom x ('(' :: (s ++ [')'])) rest
  | signed (x : ℝ) (s rest : List Char) : AngleReads f .atom x s rest → AngleReads f .signed x s rest
  | plus (x : ℝ) (s rest : List Char) : AngleReads f .signed x s rest → AngleReads f .signed x ('+' :: s) rest
  | minus (x : ℝ) (s rest : List Char) : AngleReads f .signed x s rest → AngleReads f .signed (-x) ('-' :: s) rest
  | product (x : ℝ) (s rest : List Char) : AngleReads f .signed x s rest → AngleReads f .product x s rest
  | mul (x y : ℝ) (s t rest : List Char) : AngleReads f .product x s ('*' :: (t ++ rest)) → AngleReads f .signed y t rest →
      AngleReads f .product (x * y) (s ++ '*' :: t) rest
  | div (x y : ℝ) (s t rest : List Char) : AngleReads f .product x s ('/' :: (t ++ rest)) → AngleReads f .signed y t rest → y ≠ 0 →
      AngleReads f .product (x / y) (s ++ '/' :: t) rest
  | sum (x : ℝ) (s rest : List Char) : AngleReads f .product x s rest → AngleReads f .sum x s rest
  | add (x y : ℝ) (s t rest : List Char) : AngleReads f .sum x s ('+' :: (t ++ rest)) → AngleReads f .product y t rest →
      AngleReads f .sum (x + y) (s ++ '+' :: t) rest
  | sub (x y : ℝ) (s t rest : List Char) : AngleReads f .sum x s ('-' :: (t ++ rest)) → AngleReads f .product y t rest →
      AngleReads f .sum (x - y) (s ++ '-' :: t) rest
  | gaps (p : Level) (x : ℝ) (g s g' rest : List Char) : Gap g → Gap g' → AngleReads f p x s (g' ++ rest) → AngleReads f p x (g ++ (s ++ g')) rest

/-! ## lists -/

/-- one or more things with commas in between and white space around, possibly with a comma at the end -/
inductive LooseItems {α : Type} (P : α → List Char → Prop) : List α → List Char → Prop
  | one (a : α) (g s g' : List Char) : Gap g → Gap g' → P a s → LooseItems P [a] (g ++ (s ++ g'))
  | last (a : α) (g s g' : List Char) : Gap g → Gap g' → P a s → LooseItems P [a] (g ++ (s ++ g') ++ [','])
  | cons (a : α) (l : List α) (g s g' t : List Char) : Gap g → Gap g' → P a s → LooseItems P l t → LooseItems P (a :: l) (g ++ (s ++ g') ++ ',' :: t)

/-- a list that may be empty; a comma alone counts as the empty list -/
inductive LooseList {α : Type} (P : α → List Char → Prop) : List α → List Char → Prop
  | none (g : List Char) : Gap g → LooseList P [] g
  | comma (g : List Char) : Gap g → LooseList P [] (g ++ [','])
  | items (l : List α) (s : List Char) : LooseItems P l s → LooseList P l s

/-! ## statements -/

/-- statements, with the values of the angles -/
inductive LStmt where
  | version
  | include
  | qreg (name : List Char) (size : Nat)
  | creg (name : List Char) (size : Nat)
  | barrier
  | gate (name : List Char) (angles : List ℝ) (operands : List (List Char × Nat))
  | measure (q c : QOperand)

/-- a text that begins with no letter, digit or underscore -/
def Apart (s : List Char) : Prop := ∀ c ∈ s.head?, c.isAlphanum = false ∧ c ≠ '_'

/-- the texts that are read as a statement -/
inductive LooseStmt (f : List Char → ℝ × Nat) : LStmt → List Char → Prop
  | version (w g : List Char) : SameWord "openqasm".toList w → Gap g → g ≠ [] → LooseStmt f .version (w ++ (g ++ "2.0".toList))
  | include (w g file : List Char) : SameWord "include".toList w → Gap g → SameWord "qelib1.inc".toList file →
      LooseStmt f .include (w ++ (g ++ '"' :: (file ++ ['"'])))
  | qreg (w g name s : List Char) (size : Nat) : SameWord "qreg".toList w → Gap g → Apart (g ++ s) → LooseElement (name, size) s →
      LooseStmt f (.qreg name size) (w ++ (g ++ s))
  | creg (w g name s : List Char) (size : Nat) : SameWord "creg".toList w → Gap g → Apart (g ++ s) → LooseElement (name, size) s →
      LooseStmt f (.creg name size) (w ++ (g ++ s))
  | barrier (w s : List Char) : SameWord "barrier".toList w → Apart s → LooseStmt f .barrier (w ++ s)
  | gate (name g s : List Char) (operands : List (List Char × Nat)) : Ident name → name.map Char.toLower ∉ reservedWords → Gap g → Apart (g ++ s) →
      (∀ c ∈ s.head?, c ≠ '(') → LooseList LooseElement operands s → LooseStmt f (.gate name [] operands) (name ++ (g ++ s))
  | angles (name g s t : List Char) (angles : List ℝ) (operands : List (List Char × Nat)) : Ident name → name.map Char.toLower ∉ reservedWords → Gap g →
      LooseList (fun x u => AngleReads f .sum x u []) angles s → LooseList LooseElement operands t →
      LooseStmt f (.gate name angles operands) (name ++ (g ++ '(' :: (s ++ ')' :: t)))
  | measure (w g s g' g'' t : List Char) (q c : QOperand) : SameWord "measure".toList w → Apart (g ++ (s ++ g' ++ '-' :: '>' :: (g'' ++ t))) → Gap g → Gap g' →
      Gap g'' → LooseOperand q s → LooseOperand c t → LooseStmt f (.measure q c) (w ++ (g ++ (s ++ g' ++ '-' :: '>' :: (g'' ++ t))))

/-- every quotation mark has its partner, and semicolons occur only between the two -/
inductive Sealed : List Char → Prop
  | nil : Sealed []
  | char (c : Char) (s : List Char) : c ≠ '"' → c ≠ ';' → Sealed s → Sealed (c :: s)
  | string (t s : List Char) : '"' ∉ t → Sealed s → Sealed ('"' :: (t ++ '"' :: s))

/-- a program without comments: statements, each with its semicolon; empty statements do not count -/
inductive ProgramOf {α : Type} (P : α → List Char → Prop) : List α → List Char → Prop
  | nil (g : List Char) : Gap g → ProgramOf P [] g
  | empty (l : List α) (g t : List Char) : Gap g → ProgramOf P l t → ProgramOf P l (g ++ ';' :: t)
  | cons (a : α) (l : List α) (g s g' t : List Char) : Gap g → Gap g' → Sealed s → P a s → ProgramOf P l t →
      ProgramOf P (a :: l) (g ++ (s ++ g') ++ ';' :: t)

/-! ## meaning -/

/-- one statement; the same as `QStmt.exec` -/
noncomputable def LStmt.exec (p : QProgram) : LStmt → Option QProgram
  | .version => some { p with header := true }
  | .include => some p
  | .qreg name size => if name ∈ p.qregs.map Prod.fst ∨ size = 0 then none else some { p with qregs := p.qregs ++ [(name, size)] }
  | .creg name size => if name ∈ p.cregs.map Prod.fst ∨ size = 0 then none else some { p with cregs := p.cregs ++ [(name, size)] }
  | .barrier => some { p with warnings := p.warnings ++ ["barrier is ignored"] }
  | .gate name θs operands =>
    (operands.mapM fun o => flatIndex p.qregs o.1 o.2).bind fun qs =>
    if ¬ qs.Nodup then none
    else (qelibGate (name.map Char.toLower) θs qs).bind fun d =>
      if d.isSome = true ∧ ∃ q ∈ qs, 64 ≤ q then none
      else some { p with
        instrs := p.instrs ++ d.toList.map Instr.gate, header := true,
        warnings := p.warnings ++ if p.header then [] else ["OPENQASM 2.0 header is missing"] }
  | .measure q c =>
    (q.elements p.qregs).bind fun qs =>
    (c.elements p.cregs).bind fun cs =>
    if qs.length ≠ cs.length ∨ ∃ q ∈ qs, 64 ≤ q then none
    else some { p with instrs := p.instrs ++ List.zipWith (fun q c => Instr.measure q c false) qs cs }

/-- the meaning of a program -/
noncomputable def looseMeaning (l : List LStmt) : Option QProgram := l.foldlM LStmt.exec ⟨[], [], [], false, []⟩

/-- the declared sizes -/
def LStmt.qubits : LStmt → Nat
  | .qreg _ size => size
  | _ => 0

def LStmt.bits : LStmt → Nat
  | .creg _ size => size
  | _ => 0

end Verif.Spec
