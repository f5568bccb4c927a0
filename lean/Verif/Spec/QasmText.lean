import Verif.Spec.Qasm
import Verif.Spec.Decimal

/-! # OpenQASM 2.0: programs, how they are written, what they mean

Written from the OpenQASM 2.0 grammar and the documentation of `loads` (/repo/include/scaluq/qasm/qasm2.hpp).  A program is a list of
statements (`QStmt`); `ProgramText` says which texts write it, `QStmt.exec` what it means.  The grammar is the supported part of OpenQASM: no
functions and powers in angles, no gate definitions, no `reset`, no `if`, no gates on whole registers.  Keywords and gate names may be written in
upper or lower case. -/

namespace Verif.Spec
open Verif Verif.Model

/-! ## characters -/

/-- white space -/
def Gap (s : List Char) : Prop := ∀ c ∈ s, c ∈ [' ', '\t', '\n', '\x0b', '\x0c', '\r']

/-- a name: letters, digits, underscores -/
def Ident (s : List Char) : Prop := s ≠ [] ∧ ∀ c ∈ s, c.isAlphanum = true ∨ c = '_'

/-- the word `s` is `kw`, in upper or lower case -/
def SameWord (kw s : List Char) : Prop := s.map Char.toLower = kw

/-- digits that write `n` -/
def Digits (n : Nat) (s : List Char) : Prop := s ≠ [] ∧ (∀ c ∈ s, c.isDigit = true) ∧ natOfDigits s = n

/-! ## angles -/

/-- a number: digits, a point, digits, exponent (the letter, the sign if any, digits) -/
structure Numeral where
  whole : List Char
  point : Bool
  frac : List Char
  exp : Option (Bool × Option Bool × List Char)

/-- at least one digit in front of the exponent, no fraction without a point -/
def Numeral.WellFormed (l : Numeral) : Prop :=
  (∀ c ∈ l.whole, c.isDigit = true) ∧ (∀ c ∈ l.frac, c.isDigit = true) ∧ l.whole ++ l.frac ≠ [] ∧ (l.point = false → l.frac = []) ∧
  ∀ u s ds, l.exp = some (u, s, ds) → ds ≠ [] ∧ ∀ c ∈ ds, c.isDigit = true

/-- the text of a number; `true` stands for `E` and for a minus sign -/
def Numeral.text (l : Numeral) : List Char :=
  l.whole ++ (if l.point then '.' :: l.frac else []) ++
  match l.exp with
  | none => []
  | some (u, s, ds) => (if u then 'E' else 'e') :: ((match s with
    | none => []
    | some true => ['-']
    | some false => ['+']) ++ ds)

/-- its value -/
noncomputable def Numeral.value (l : Numeral) : ℝ :=
  natOfDigits (l.whole ++ l.frac) * (10 : ℝ) ^ (-(l.frac.length : ℤ) + match l.exp with
    | none => 0
    | some (_, s, ds) => if s = some true then -(natOfDigits ds : ℤ) else natOfDigits ds)

/-- the numbers whose nearest double is finite -/
def Numeral.Finite (l : Numeral) : Prop := l.value < 2 ^ 1024 - 2 ^ 970

/-- `strtod` reads numbers up to their end and rounds them to a nearest double, which depends on the number alone -/
def StrtodReads (f : List Char → ℝ × Nat) (num : Numeral → ℝ) : Prop :=
  ∀ l : Numeral, l.WellFormed → l.Finite → NearestDouble l.value (num l) ∧ ∀ rest, Stops rest → f (l.text ++ rest) = (num l, l.text.length)

/-- angle expressions -/
inductive AngleExpr where
  | number (l : Numeral)
  | pi
  | plus (a : AngleExpr)
  | minus (a : AngleExpr)
  | add (a b : AngleExpr)
  | sub (a b : AngleExpr)
  | mul (a b : AngleExpr)
  | div (a b : AngleExpr)

open Classical in
/-- the value of an angle, undefined if a divisor is zero -/
noncomputable def AngleExpr.eval (num : Numeral → ℝ) : AngleExpr → Option ℝ
  | .number l => some (num l)
  | .pi => some Real.pi
  | .plus a => a.eval num
  | .minus a => (a.eval num).map fun x => -x
  | .add a b => (a.eval num).bind fun x => (b.eval num).map fun y => x + y
  | .sub a b => (a.eval num).bind fun x => (b.eval num).map fun y => x - y
  | .mul a b => (a.eval num).bind fun x => (b.eval num).map fun y => x * y
  | .div a b => (a.eval num).bind fun x => (b.eval num).bind fun y => if y = 0 then none else some (x / y)

/-- levels of the grammar, from the loosest to the tightest -/
inductive Level where
  | sum
  | product
  | signed
  | atom

/-- the texts that write an angle; `*` and `/` bind tighter than `+` and `-`, signs tighter still, and operators group to the left -/
inductive AngleText : Level → AngleExpr → List Char → Prop
  | number (l : Numeral) : l.WellFormed → l.Finite → AngleText .atom (.number l) l.text
  | pi : AngleText .atom .pi ['p', 'i']
  | parens (a : AngleExpr) (s : List Char) : AngleText .sum a s → AngleText .atom a ('(' :: (s ++ [')']))
  | signed (a : AngleExpr) (s : List Char) : AngleText .atom a s → AngleText .signed a s
  | plus (a : AngleExpr) (s : List Char) : AngleText .signed a s → AngleText .signed (.plus a) ('+' :: s)
  | minus (a : AngleExpr) (s : List Char) : AngleText .signed a s → AngleText .signed (.minus a) ('-' :: s)
  | product (a : AngleExpr) (s : List Char) : AngleText .signed a s → AngleText .product a s
  | mul (a b : AngleExpr) (s t : List Char) : AngleText .product a s → AngleText .signed b t → AngleText .product (.mul a b) (s ++ '*' :: t)
  | div (a b : AngleExpr) (s t : List Char) : AngleText .product a s → AngleText .signed b t → AngleText .product (.div a b) (s ++ '/' :: t)
  | sum (a : AngleExpr) (s : List Char) : AngleText .product a s → AngleText .sum a s
  | add (a b : AngleExpr) (s t : List Char) : AngleText .sum a s → AngleText .product b t → AngleText .sum (.add a b) (s ++ '+' :: t)
  | sub (a b : AngleExpr) (s t : List Char) : AngleText .sum a s → AngleText .product b t → AngleText .sum (.sub a b) (s ++ '-' :: t)
  | gaps (p : Level) (a : AngleExpr) (g s g' : List Char) : Gap g → Gap g' → AngleText p a s → AngleText p a (g ++ (s ++ g'))

/-! ## statements -/

/-- a register, or one of its elements -/
structure QOperand where
  name : List Char
  index : Option Nat

/-- statements; `refused` are the ones with `reset`, `if`, `gate`, `opaque` -/
inductive QStmt where
  | version (number : List Char)
  | include (file : List Char)
  | qreg (name : List Char) (size : Nat)
  | creg (name : List Char) (size : Nat)
  | barrier
  | refused
  | gate (name : List Char) (angles : List AngleExpr) (operands : List (List Char × Nat))
  | measure (q c : QOperand)

/-- a list of things written with commas in between and white space around -/
inductive CommaText {α : Type} (P : α → List Char → Prop) : List α → List Char → Prop
  | one (a : α) (g s g' : List Char) : Gap g → Gap g' → P a s → CommaText P [a] (g ++ (s ++ g'))
  | cons (a : α) (l : List α) (g s g' t : List Char) : Gap g → Gap g' → P a s → CommaText P l t → CommaText P (a :: l) (g ++ (s ++ g') ++ ',' :: t)

/-- `name [ digits ]` -/
inductive ElementText : List Char × Nat → List Char → Prop
  | mk (name : List Char) (i : Nat) (g g' g'' ds : List Char) : Ident name → Gap g → Gap g' → Gap g'' → Digits i ds →
      ElementText (name, i) (name ++ g ++ '[' :: (g' ++ (ds ++ g'') ++ [']']))

/-- an operand of `measure` -/
inductive OperandText : QOperand → List Char → Prop
  | element (name : List Char) (i : Nat) (s : List Char) : ElementText (name, i) s → OperandText ⟨name, some i⟩ s
  | whole (name : List Char) : Ident name → OperandText ⟨name, none⟩ name

/-- the part of a gate statement between the parentheses; `()` is allowed -/
inductive AnglesText : List AngleExpr → List Char → Prop
  | none (g : List Char) : Gap g → AnglesText [] g
  | some (l : List AngleExpr) (s : List Char) : CommaText (AngleText .sum) l s → AnglesText l s

/-- words with a meaning of their own -/
def reservedWords : List (List Char) :=
  ["openqasm", "include", "qreg", "creg", "barrier", "measure", "reset", "if", "gate", "opaque"].map String.toList

/-- the words of statements that are refused -/
def refusedWords : List (List Char) := ["reset", "if", "gate", "opaque"].map String.toList

/-- a text that may follow a word, without semicolon and quotation mark -/
def Tail (s : List Char) : Prop := (∀ c ∈ s, c ≠ ';' ∧ c ≠ '"') ∧ ∀ c ∈ s.head?, c.isAlphanum = false ∧ c ≠ '_'

/-- the texts that write a statement, without the semicolon -/
inductive StmtText : QStmt → List Char → Prop
  | version (w g v : List Char) : SameWord "openqasm".toList w → Gap g → g ≠ [] → v ≠ [] → (∀ c ∈ v, c.isDigit = true ∨ c = '.') →
      StmtText (.version v) (w ++ g ++ v)
  | include (w g file : List Char) : SameWord "include".toList w → Gap g → (∀ c ∈ file, c ≠ '"') → StmtText (.include file) (w ++ g ++ '"' :: (file ++ ['"']))
  | qreg (w g name s : List Char) (size : Nat) : SameWord "qreg".toList w → Gap g → g ≠ [] → ElementText (name, size) s → StmtText (.qreg name size) (w ++ g ++ s)
  | creg (w g name s : List Char) (size : Nat) : SameWord "creg".toList w → Gap g → g ≠ [] → ElementText (name, size) s → StmtText (.creg name size) (w ++ g ++ s)
  | barrier (w s : List Char) : SameWord "barrier".toList w → Tail s → StmtText .barrier (w ++ s)
  | refused (kw w s : List Char) : kw ∈ refusedWords → SameWord kw w → Tail s → StmtText .refused (w ++ s)
  | gate (name g s : List Char) (operands : List (List Char × Nat)) : Ident name → name.map Char.toLower ∉ reservedWords → Gap g → g ≠ [] →
      CommaText ElementText operands s → StmtText (.gate name [] operands) (name ++ g ++ s)
  | angles (name g s t : List Char) (angles : List AngleExpr) (operands : List (List Char × Nat)) : Ident name →
      name.map Char.toLower ∉ reservedWords → Gap g → AnglesText angles s → CommaText ElementText operands t →
      StmtText (.gate name angles operands) (name ++ g ++ '(' :: (s ++ ')' :: t))
  | measure (w g s g' g'' t : List Char) (q c : QOperand) : SameWord "measure".toList w → Gap g → g ≠ [] → Gap g' → Gap g'' → OperandText q s → OperandText c t →
      StmtText (.measure q c) (w ++ g ++ (s ++ g' ++ '-' :: '>' :: (g'' ++ t)))

/-- the texts that write a program without comments -/
inductive ProgramText : List QStmt → List Char → Prop
  | nil (g : List Char) : Gap g → ProgramText [] g
  | empty (l : List QStmt) (g t : List Char) : Gap g → ProgramText l t → ProgramText l (g ++ ';' :: t)
  | cons (q : QStmt) (l : List QStmt) (g s g' t : List Char) : Gap g → Gap g' → StmtText q s → ProgramText l t →
      ProgramText (q :: l) (g ++ (s ++ g') ++ ';' :: t)

/-- the text `raw` is `clean` with comments inserted, outside of strings -/
inductive Commented : List Char → List Char → Prop
  | nil : Commented [] []
  | char (c : Char) (raw clean : List Char) : c ≠ '"' → c ≠ '/' → Commented raw clean → Commented (c :: raw) (c :: clean)
  | slash (d : Char) (raw clean : List Char) : d ≠ '/' → d ≠ '*' → Commented (d :: raw) (d :: clean) → Commented ('/' :: d :: raw) ('/' :: d :: clean)
  | string (s raw clean : List Char) : '"' ∉ s → Commented raw clean → Commented ('"' :: (s ++ '"' :: raw)) ('"' :: (s ++ '"' :: clean))
  | line (s raw clean : List Char) : '\n' ∉ s → Commented raw clean → Commented ('/' :: '/' :: (s ++ '\n' :: raw)) clean
  | lastLine (s : List Char) : '\n' ∉ s → Commented ('/' :: '/' :: s) []
  | block (s raw clean : List Char) : ¬ ['*', '/'] <:+: s → Commented raw clean → Commented ('/' :: '*' :: (s ++ '*' :: '/' :: raw)) clean

/-- the text `raw` is `clean` with comments in place of white space, outside of strings; this is what the language definition says: a comment
separates words and numbers -/
inductive Spaced : List Char → List Char → Prop
  | nil : Spaced [] []
  | char (c : Char) (raw clean : List Char) : c ≠ '"' → c ≠ '/' → Spaced raw clean → Spaced (c :: raw) (c :: clean)
  | slash (d : Char) (raw clean : List Char) : d ≠ '/' → d ≠ '*' → Spaced (d :: raw) (d :: clean) → Spaced ('/' :: d :: raw) ('/' :: d :: clean)
  | string (s raw clean : List Char) : '"' ∉ s → Spaced raw clean → Spaced ('"' :: (s ++ '"' :: raw)) ('"' :: (s ++ '"' :: clean))
  | line (s raw clean : List Char) : '\n' ∉ s → Spaced raw clean → Spaced ('/' :: '/' :: (s ++ '\n' :: raw)) ('\n' :: clean)
  | lastLine (s : List Char) : '\n' ∉ s → Spaced ('/' :: '/' :: s) []
  | block (s raw clean : List Char) : ¬ ['*', '/'] <:+: s → Spaced raw clean → Spaced ('/' :: '*' :: (s ++ '*' :: '/' :: raw)) (' ' :: clean)

/-! ## meaning -/

/-- what the target of a gate of `qelib1.inc` is -/
inductive QGate where
  | nothing
  | one (k : List ℝ → Option Gate1)
  | swap

/-- the gates of `qelib1.inc`: name, number of controls (the first operands), gate on the remaining operands as a function of the angles -/
noncomputable def qelibTable : List (String × Nat × QGate) :=
  let fixed (k : Gate1) : QGate := .one fun
    | [] => some k
    | _ => none
  let turn (k : ℝ → Gate1) : QGate := .one fun
    | [a] => some (k a)
    | _ => none
  let u3 : QGate := .one fun
    | [a, b, c] => some (.U3 a b c)
    | _ => none
  [("id", 0, .nothing), ("x", 0, fixed .X), ("y", 0, fixed .Y), ("z", 0, fixed .Z), ("h", 0, fixed .H), ("s", 0, fixed .S), ("sdg", 0, fixed .Sdag),
   ("t", 0, fixed .T), ("tdg", 0, fixed .Tdag), ("rx", 0, turn .RX), ("ry", 0, turn .RY), ("rz", 0, turn .RZ), ("u1", 0, turn .U1),
   ("u2", 0, .one fun
      | [a, b] => some (.U2 a b)
      | _ => none),
   ("u3", 0, u3), ("u", 0, u3), ("cx", 1, fixed .X), ("cnot", 1, fixed .X), ("cy", 1, fixed .Y), ("cz", 1, fixed .Z), ("ch", 1, fixed .H),
   ("crx", 1, turn .RX), ("cry", 1, turn .RY), ("crz", 1, turn .RZ), ("cu1", 1, turn .U1), ("cu3", 1, u3), ("ccx", 2, fixed .X),
   ("swap", 0, .swap), ("cswap", 1, .swap)]

/-- the gate with these angles and operands (none for `id`), undefined if there is no such gate -/
noncomputable def qelibGate (name : List Char) (angles : List ℝ) (operands : List Nat) : Option (Option GateDesc) :=
  match qelibTable.find? (fun e => e.1.toList = name) with
  | none => none
  | some (_, controls, g) =>
    match g, operands.drop controls with
    | .nothing, [_] => if angles = [] then some none else none
    | .one k, [q] => (k angles).map fun k => some (.one k q (operands.take controls) [])
    | .swap, [a, b] => if angles = [] then some (some (.swap a b (operands.take controls) [])) else none
    | _, _ => none

/-- what is known while reading a program -/
structure QProgram where
  qregs : List (List Char × Nat)
  cregs : List (List Char × Nat)
  instrs : List Instr
  header : Bool
  warnings : List String

/-- the numbers of the elements an operand of `measure` stands for -/
def QOperand.elements (decls : List (List Char × Nat)) (o : QOperand) : Option (List Nat) :=
  match o.index with
  | some i => (flatIndex decls o.name i).map fun a => [a]
  | none => (decls.lookup o.name).bind fun size => (List.range size).mapM fun i => flatIndex decls o.name i

/-- one statement; undefined if it is an error or not supported.  Gates act on qubits below 64. -/
noncomputable def QStmt.exec (num : Numeral → ℝ) (p : QProgram) : QStmt → Option QProgram
  | .version v => if v = "2.0".toList then some { p with header := true } else none
  | .include f => if f.map Char.toLower = "qelib1.inc".toList then some p else none
  | .qreg name size => if name ∈ p.qregs.map Prod.fst ∨ size = 0 then none else some { p with qregs := p.qregs ++ [(name, size)] }
  | .creg name size => if name ∈ p.cregs.map Prod.fst ∨ size = 0 then none else some { p with cregs := p.cregs ++ [(name, size)] }
  | .barrier => some { p with warnings := p.warnings ++ ["barrier is ignored"] }
  | .refused => none
  | .gate name angles operands =>
    (angles.mapM (AngleExpr.eval num)).bind fun θs =>
    (operands.mapM fun o => flatIndex p.qregs o.1 o.2).bind fun qs =>
    if ¬ qs.Nodup then none
    else (qelibGate (name.map Char.toLower) θs qs).bind fun d =>
      if d.isSome = true ∧ ∃ q ∈ qs, 64 ≤ q then none
      else some { p with
        instrs := p.instrs ++ d.toList.map Instr.gate, header := true,
        warnings := p.warnings ++ if p.header then [] else ["OPENQASM 2.0 header is missing"] }
  | .measure q c =>
    (q.elements p.qregs).bind fun qs =>
    (c.elements p.cregs).bind fun cs =>
    if qs.length ≠ cs.length ∨ ∃ q ∈ qs, 64 ≤ q then none
    else some { p with instrs := p.instrs ++ List.zipWith (fun q c => Instr.measure q c false) qs cs }

/-- the meaning of a program -/
noncomputable def programMeaning (num : Numeral → ℝ) (l : List QStmt) : Option QProgram :=
  l.foldlM (QStmt.exec num) ⟨[], [], [], false, []⟩

/-- the declared sizes -/
def QStmt.qubits : QStmt → Nat
  | .qreg _ size => size
  | _ => 0

def QStmt.bits : QStmt → Nat
  | .creg _ size => size
  | _ => 0

end Verif.Spec
