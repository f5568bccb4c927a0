import Verif.Model.Circuit

/-!
# OpenQASM 2.0

Model of /repo/src/qasm/qasm2.cpp.  A text is a list of characters; `<cctype>` is the one of the "C" locale.  Source locations occur only in
messages and are left out, messages are shortened.  The two conversions of the C library between texts and numbers are
parameters (`Libc`); the arithmetic of angle expressions is exact.
-/

namespace Verif.Model
open Verif Verif.Spec

/-- `std::string` -/
abbrev Text := List Char

open Lean in
/-- the characters of a string literal -/
macro "t!" s:str : term => do
  let cs := s.getString.toList.map fun c => Syntax.mkCharLit c
  `(([$(cs.toArray),*] : List Char))

/-- `std::strtod` (value, number of characters read) and `oss << std::setprecision(17) << value` -/
structure Libc where
  strtod : Text → ℝ × Nat
  format : ℝ → Text

/-- `std::isspace` -/
def isBlank (c : Char) : Bool := c == ' ' || c == '\t' || c == '\n' || c == '\x0b' || c == '\x0c' || c == '\r'

/-- `std::isalnum(c) || c == '_'` -/
def isWord (c : Char) : Bool := c.isAlphanum || c == '_'

/-- /repo/src/qasm/qasm2.cpp:116-121 `trim` -/
def trim (s : Text) : Text := (((s.dropWhile isBlank).reverse).dropWhile isBlank).reverse

/-- /repo/src/qasm/qasm2.cpp:123-129 `lower` -/
def lowerCase (s : Text) : Text := s.map Char.toLower

/-- /repo/src/qasm/qasm2.cpp:131-136 `starts_with_word` -/
def startsWithWord (s word : Text) : Bool :=
  word.isPrefixOf s && match s.drop word.length with
    | [] => true
    | c :: _ => !isWord c

/-! ## statements -/

/-- the local variables of `split_statements` -/
structure Scan where
  statements : List Text
  current : Text
  inLine : Bool
  inBlock : Bool
  inString : Bool

/-- the loop of /repo/src/qasm/qasm2.cpp:159-208; `next` is `'\0'` at the end -/
def scan : Text → Scan → Scan
  | [], s => s
  | c :: cs, s =>
    let next := match cs with
      | [] => '\x00'
      | d :: _ => d
    if s.inLine then scan cs { s with inLine := s.inLine && c != '\n' }
    else if s.inBlock then
      if c == '*' && next == '/' then
        match cs with
        | [] => { s with inBlock := false }
        | _ :: cs' => scan cs' { s with inBlock := false }
      else scan cs s
    else if !s.inString && c == '/' && next == '/' then
      match cs with
      | [] => { s with inLine := true }
      | _ :: cs' => scan cs' { s with inLine := true }
    else if !s.inString && c == '/' && next == '*' then
      match cs with
      | [] => { s with inBlock := true }
      | _ :: cs' => scan cs' { s with inBlock := true }
    else
      let inString := if c == '"' then !s.inString else s.inString
      if !inString && c == ';' then
        let stmt := trim s.current
        scan cs { s with statements := if stmt.isEmpty then s.statements else s.statements ++ [stmt], current := [], inString := inString }
      else scan cs { s with current := s.current ++ [c], inString := inString }

/-- /repo/src/qasm/qasm2.cpp:140-219 `split_statements` -/
def splitStatements (source : Text) : Res (List Text) :=
  let s := scan source ⟨[], [], false, false, false⟩
  if s.inBlock then .error (.throw "unterminated block comment")
  else if s.inString then .error (.throw "unterminated string literal")
  else if !(trim s.current).isEmpty then .error (.throw "statement is missing ';'")
  else .ok s.statements

/-! ## angle expressions -/

/-- /repo/src/qasm/qasm2.cpp:245-250 `skip_spaces`; the state of the parser is the text from `_pos` on -/
def skipSpaces (s : Text) : Text := s.dropWhile isBlank

/-- /repo/src/qasm/qasm2.cpp:252-259 `consume`: the text afterwards if the character is found -/
def consume (c : Char) (s : Text) : Option Text :=
  match skipSpaces s with
  | d :: s' => if d == c then some s' else none
  | [] => none

/-- the recursion of the model is bounded by a number; `angleFuel_suffices` shows that the bound of `parseAngle` is never reached -/
def outOfFuel : Fault := .ub "model: bound on the recursion reached"

open Classical in
/-- the number case of `parse_primary` (/repo/src/qasm/qasm2.cpp:321-326) -/
noncomputable def parseNumber (lib : Libc) (s : Text) : Res (ℝ × Text) :=
  if (lib.strtod s).2 = 0 then .error (.throw "expected number or identifier")
  else .ok ((lib.strtod s).1, s.drop (lib.strtod s).2)

/-- the identifier case of `parse_primary` (/repo/src/qasm/qasm2.cpp:306-319) -/
noncomputable def parseIdentifier (s : Text) : Res (ℝ × Text) :=
  if s.takeWhile isWord = t! "pi" then .ok (Real.pi, s.dropWhile isWord)
  else .error (.throw "only the OpenQASM constant 'pi' is supported in angle expressions")

mutual
/-- /repo/src/qasm/qasm2.cpp:261-272 `parse_add_sub` -/
noncomputable def parseAddSub (lib : Libc) : Nat → Text → Res (ℝ × Text)
  | 0, _ => .error outOfFuel
  | k + 1, s => do
    let (lhs, s) ← parseMulDiv lib k s
    addSubLoop lib k lhs s
/-- the loop of `parse_add_sub` -/
noncomputable def addSubLoop (lib : Libc) : Nat → ℝ → Text → Res (ℝ × Text)
  | 0, _, _ => .error outOfFuel
  | k + 1, lhs, s =>
    match consume '+' s with
    | some s' => do
      let (rhs, s'') ← parseMulDiv lib k s'
      addSubLoop lib k (lhs + rhs) s''
    | none =>
      match consume '-' s with
      | some s' => do
        let (rhs, s'') ← parseMulDiv lib k s'
        addSubLoop lib k (lhs + -rhs) s''
      | none => .ok (lhs, skipSpaces s)
/-- /repo/src/qasm/qasm2.cpp:274-289 `parse_mul_div` -/
noncomputable def parseMulDiv (lib : Libc) : Nat → Text → Res (ℝ × Text)
  | 0, _ => .error outOfFuel
  | k + 1, s => do
    let (lhs, s) ← parseUnary lib k s
    mulDivLoop lib k lhs s
/-- the loop of `parse_mul_div` -/
noncomputable def mulDivLoop (lib : Libc) : Nat → ℝ → Text → Res (ℝ × Text)
  | 0, _, _ => .error outOfFuel
  | k + 1, lhs, s =>
    match consume '*' s with
    | some s' => do
      let (rhs, s'') ← parseUnary lib k s'
      mulDivLoop lib k (lhs * rhs) s''
    | none =>
      match consume '/' s with
      | some s' => do
        let (rhs, s'') ← parseUnary lib k s'
        if rhs = 0 then .error (.throw "division by zero")
        else mulDivLoop lib k (lhs / rhs) s''
      | none => .ok (lhs, skipSpaces s)
/-- /repo/src/qasm/qasm2.cpp:291-295 `parse_unary` -/
noncomputable def parseUnary (lib : Libc) : Nat → Text → Res (ℝ × Text)
  | 0, _ => .error outOfFuel
  | k + 1, s =>
    match consume '+' s with
    | some s' => parseUnary lib k s'
    | none =>
      match consume '-' s with
      | some s' => do
        let (x, s'') ← parseUnary lib k s'
        pure (-x, s'')
      | none => parsePrimary lib k s
/-- /repo/src/qasm/qasm2.cpp:297-327 `parse_primary` -/
noncomputable def parsePrimary (lib : Libc) : Nat → Text → Res (ℝ × Text)
  | 0, _ => .error outOfFuel
  | k + 1, s =>
    match consume '(' s with
    | some s' => do
      let (x, s'') ← parseAddSub lib k s'
      match consume ')' s'' with
      | none => .error (.throw "expected ')'")
      | some s''' => pure (x, s''')
    | none =>
      match skipSpaces s with
      | [] => .error (.throw "expected expression")
      | c :: cs => if c.isAlpha || c == '_' then parseIdentifier (c :: cs) else parseNumber lib (c :: cs)
end

/-- /repo/src/qasm/qasm2.cpp:223-234 `ExprParser::parse` -/
noncomputable def parseAngle (lib : Libc) (source : Text) : Res ℝ := do
  let (x, s) ← parseAddSub lib (6 * source.length + 6) source
  if (skipSpaces s).isEmpty then pure x else .error (.throw "unexpected token in angle expression")

/-! ## operands -/

/-- the loop of /repo/src/qasm/qasm2.cpp:348-356; `cur` is the part since `begin` -/
def commaLoop : Text → Nat → Text → List Text → Res (List Text)
  | [], depth, cur, parts =>
    if depth ≠ 0 then .error (.throw "unmatched '('")
    else .ok (if cur.isEmpty then parts else parts ++ [trim cur])
  | c :: cs, depth, cur, parts =>
    if c == '(' then commaLoop cs (depth + 1) (cur ++ [c]) parts
    else if c == ')' then
      match depth with
      | 0 => .error (.throw "unmatched ')'")
      | d + 1 => commaLoop cs d (cur ++ [c]) parts
    else if c == ',' && depth == 0 then commaLoop cs depth [] (parts ++ [trim cur])
    else commaLoop cs depth (cur ++ [c]) parts

/-- /repo/src/qasm/qasm2.cpp:344-361 `split_comma_list` -/
def splitCommaList (source : Text) : Res (List Text) := do
  let parts ← commaLoop source 0 [] []
  pure (if parts == [[]] then [] else parts)

/-- `Register` (/repo/src/qasm/qasm2.cpp:33-36) -/
structure QReg where
  offset : Nat
  size : Nat

/-- `std::map<std::string, Register>` -/
abbrev Registers := List (Text × QReg)

/-- value of a text of decimal digits -/
def digitsValue (s : Text) : Nat := s.foldl (fun acc c => acc * 10 + (c.toNat - '0'.toNat)) 0

/-- `std::strtoull(text, &end, 10)` on a text that does not start with white space: the value and the text from `end` on;
`none` if no digit is found.  A value that does not fit gives the largest one, a minus sign negates modulo `2^64`. -/
def strtoull (s : Text) : Option (Nat × Text) :=
  let (negative, s) := match s with
    | '-' :: s' => (true, s')
    | '+' :: s' => (false, s')
    | s => (false, s)
  let digits := s.takeWhile Char.isDigit
  if digits.isEmpty then none
  else
    let v := digitsValue digits
    let v := if v ≥ 2 ^ 64 then 2 ^ 64 - 1 else if negative then (2 ^ 64 - v) % 2 ^ 64 else v
    some (v, s.dropWhile Char.isDigit)

/-- an integer that is the whole text: `end != begin && *end == '\0'`; a character `'\0'` also ends the text -/
def wholeInteger (s : Text) : Option Nat :=
  match strtoull s with
  | none => none
  | some (v, []) => some v
  | some (v, c :: _) => if c == '\x00' then some v else none

/-- the parts before and between the brackets (/repo/src/qasm/qasm2.cpp:371-383, 417-423): the first `[`, the first `]`, and
the latter must be the last character -/
def bracketed (op : Text) : Option (Text × Text) :=
  let lb := op.findIdx (· == '[')
  let rb := op.findIdx (· == ']')
  if lb = op.length ∨ rb = op.length ∨ rb + 1 ≠ op.length ∨ rb < lb then none
  else some (trim (op.take lb), trim ((op.drop (lb + 1)).take (rb - lb - 1)))

/-- /repo/src/qasm/qasm2.cpp:366-393 `parse_indexed_register`; the sum of `std::uint64_t` values wraps -/
def parseIndexedRegister (operand : Text) (registers : Registers) : Res Nat :=
  match bracketed (trim operand) with
  | none => .error (.throw "expected indexed register operand")
  | some (name, indexText) =>
    match registers.lookup name with
    | none => .error (.throw "unknown register")
    | some r =>
      match wholeInteger indexText with
      | none => .error (.throw "register index must be an integer")
      | some index =>
        if index ≥ r.size then .error (.throw "register index out of range")
        else .ok ((r.offset + index) % 2 ^ 64)

/-- /repo/src/qasm/qasm2.cpp:397-412 `parse_measure_register_operand`: offset and size -/
def parseMeasureOperand (operand : Text) (registers : Registers) : Res QReg :=
  let op := trim operand
  if op.any (fun c => c == '[' || c == ']') then do
    let i ← parseIndexedRegister op registers
    pure ⟨i, 1⟩
  else
    match registers.lookup op with
    | none => .error (.throw "unknown register")
    | some r => .ok r

/-- /repo/src/qasm/qasm2.cpp:414-430 `parse_register_decl` -/
def parseRegisterDecl (stmt keyword : Text) : Res Nat :=
  match bracketed (trim (stmt.drop keyword.length)) with
  | none => .error (.throw "invalid register declaration")
  | some (_, sizeText) =>
    match wholeInteger sizeText with
    | none => .error (.throw "register size must be a positive integer")
    | some size => if size = 0 then .error (.throw "register size must be a positive integer") else .ok size

/-- /repo/src/qasm/qasm2.cpp:432-439 `parse_register_name` -/
def parseRegisterName (stmt keyword : Text) : Res Text :=
  let s := trim (stmt.drop keyword.length)
  if s.all (· != '[') then .error (.throw "invalid register declaration")
  else .ok (trim (s.takeWhile (· != '[')))

/-! ## reader -/

/-- `Reader` (/repo/src/qasm/qasm2.cpp:474-488) -/
structure Reader where
  circuit : Circuit
  nQubits : Nat
  nClbits : Nat
  warnings : List String
  qregs : Registers
  cregs : Registers
  sawVersion : Bool

/-- the members of a new `Reader` -/
def Reader.start : Reader := ⟨.empty, 0, 0, [], [], [], false⟩

/-- `_result.circuit.add_gate(gate::…)` -/
noncomputable def Reader.add (r : Reader) (d : GateDesc) : Res Reader := do
  let g ← d.build
  pure { r with circuit := r.circuit.addGate (.det g) }

/-- /repo/src/qasm/qasm2.cpp:588-600 `expect` failing -/
def expected : Fault := .throw "wrong number of parameters or qubits"

/-- /repo/src/qasm/qasm2.cpp:602-686 `add_gate`: the gate added, if any.  `CX`, `CZ`, `CCX`
(/repo/include/scaluq/gate/gate_factory.hpp:263-284) build the same objects as `X`, `Z` with a control list. -/
noncomputable def gateNamed (name : Text) (params : List ℝ) (qubits : List Nat) : Res (Option GateDesc) :=
  if name = t! "id" then
    match params, qubits with
    | [], [_] => .ok none
    | _, _ => .error expected
  else if name = t! "x" ∨ name = t! "y" ∨ name = t! "z" ∨ name = t! "h" ∨ name = t! "s" ∨ name = t! "sdg" ∨ name = t! "t" ∨ name = t! "tdg" then
    match params, qubits with
    | [], [q] =>
      if name = t! "x" then .ok (some (.one .X q [] []))
      else if name = t! "y" then .ok (some (.one .Y q [] []))
      else if name = t! "z" then .ok (some (.one .Z q [] []))
      else if name = t! "h" then .ok (some (.one .H q [] []))
      else if name = t! "s" then .ok (some (.one .S q [] []))
      else if name = t! "sdg" then .ok (some (.one .Sdag q [] []))
      else if name = t! "t" then .ok (some (.one .T q [] []))
      else .ok (some (.one .Tdag q [] []))
    | _, _ => .error expected
  else if name = t! "rx" ∨ name = t! "ry" ∨ name = t! "rz" then
    match params, qubits with
    | [θ], [q] =>
      if name = t! "rx" then .ok (some (.one (.RX θ) q [] []))
      else if name = t! "ry" then .ok (some (.one (.RY θ) q [] []))
      else .ok (some (.one (.RZ θ) q [] []))
    | _, _ => .error expected
  else if name = t! "u1" then
    match params, qubits with
    | [lam], [q] => .ok (some (.one (.U1 lam) q [] []))
    | _, _ => .error expected
  else if name = t! "u2" ∨ name = t! "u3" then
    if name = t! "u2" then
      match params, qubits with
      | [phi, lam], [q] => .ok (some (.one (.U2 phi lam) q [] []))
      | _, _ => .error expected
    else
      match params, qubits with
      | [theta, phi, lam], [q] => .ok (some (.one (.U3 theta phi lam) q [] []))
      | _, _ => .error expected
  else if name = t! "cx" ∨ name = t! "cnot" then
    match params, qubits with
    | [], [a, b] => .ok (some (.one .X b [a] []))
    | _, _ => .error expected
  else if name = t! "cy" ∨ name = t! "cz" ∨ name = t! "ch" then
    match params, qubits with
    | [], [a, b] =>
      if name = t! "cy" then .ok (some (.one .Y b [a] []))
      else if name = t! "cz" then .ok (some (.one .Z b [a] []))
      else .ok (some (.one .H b [a] []))
    | _, _ => .error expected
  else if name = t! "crx" ∨ name = t! "cry" ∨ name = t! "crz" then
    match params, qubits with
    | [θ], [a, b] =>
      if name = t! "crx" then .ok (some (.one (.RX θ) b [a] []))
      else if name = t! "cry" then .ok (some (.one (.RY θ) b [a] []))
      else .ok (some (.one (.RZ θ) b [a] []))
    | _, _ => .error expected
  else if name = t! "cu1" then
    match params, qubits with
    | [lam], [a, b] => .ok (some (.one (.U1 lam) b [a] []))
    | _, _ => .error expected
  else if name = t! "cu3" then
    match params, qubits with
    | [theta, phi, lam], [a, b] => .ok (some (.one (.U3 theta phi lam) b [a] []))
    | _, _ => .error expected
  else if name = t! "ccx" then
    match params, qubits with
    | [], [a, b, c] => .ok (some (.one .X c [a, b] []))
    | _, _ => .error expected
  else if name = t! "swap" then
    match params, qubits with
    | [], [a, b] => .ok (some (.swap a b [] []))
    | _, _ => .error expected
  else if name = t! "cswap" then
    match params, qubits with
    | [], [a, b, c] => .ok (some (.swap b c [a] []))
    | _, _ => .error expected
  else .error (.throw "unsupported gate")

/-- the loop of /repo/src/qasm/qasm2.cpp:561-569 on `rest` from position `i` on: the position of the matching parenthesis -/
def closeIndex : Text → Int → Nat → Option Nat
  | [], _, _ => none
  | c :: cs, depth, i =>
    let depth := if c == '(' then depth + 1 else depth
    let depth := if c == ')' then depth - 1 else depth
    if depth == 0 then some i else closeIndex cs depth (i + 1)

/-- the parameters of a statement and the text after them (/repo/src/qasm/qasm2.cpp:556-575) -/
noncomputable def parseParams (lib : Libc) (rest : Text) : Res (List ℝ × Text) :=
  match rest with
  | '(' :: _ =>
    match closeIndex rest 0 0 with
    | none => .error (.throw "unmatched '('")
    | some close => do
      let parts ← splitCommaList ((rest.drop 1).take (close - 1))
      let params ← parts.mapM (parseAngle lib)
      pure (params, trim (rest.drop (close + 1)))
  | _ => .ok ([], rest)

/-- /repo/src/qasm/qasm2.cpp:542-586 `parse_gate` -/
noncomputable def Reader.parseGate (lib : Libc) (r : Reader) (stmt : Text) : Res Reader :=
  let r := if r.sawVersion then r else { r with warnings := r.warnings ++ ["OPENQASM 2.0 header is missing"], sawVersion := true }
  let word := stmt.takeWhile isWord
  if word.isEmpty then .error (.throw "expected gate name")
  else
    let name := lowerCase word
    let name := if name = t! "u" then t! "u3" else name
    do
      let (params, rest) ← parseParams lib (trim (stmt.drop word.length))
      let operands ← splitCommaList rest
      let qubits ← operands.mapM fun operand => parseIndexedRegister operand r.qregs
      if ¬ qubits.Nodup then .error (.throw "gate operands must be distinct qubits")
      else
        match ← gateNamed name params qubits with
        | none => pure r
        | some d => r.add d

/-- position of `"->"` -/
def findArrow : Text → Option Nat
  | [] => none
  | c :: cs =>
    if c == '-' && (match cs with | d :: _ => d == '>' | [] => false) then some 0
    else (findArrow cs).map (· + 1)

/-- /repo/src/qasm/qasm2.cpp:690-706 `parse_measure` -/
def Reader.parseMeasure (r : Reader) (stmt : Text) : Res Reader :=
  let rest := trim (stmt.drop (t! "measure").length)
  match findArrow rest with
  | none => .error (.throw "measurement expects '->'")
  | some arrow => do
    let qubits ← parseMeasureOperand (trim (rest.take arrow)) r.qregs
    let clbits ← parseMeasureOperand (trim (rest.drop (arrow + 2))) r.cregs
    if qubits.size ≠ clbits.size then .error (.throw "measurement register sizes must match")
    else (List.range qubits.size).foldlM (fun (r : Reader) i => do
      let g ← mkMeas ((qubits.offset + i) % 2 ^ 64) ((clbits.offset + i) % 2 ^ 64) false
      pure { r with circuit := r.circuit.addGate (.meas g) }) r

/-- /repo/src/qasm/qasm2.cpp:492-538 `handle_statement` -/
noncomputable def Reader.handle (lib : Libc) (r : Reader) (statement : Text) : Res Reader :=
  let stmt := trim statement
  let low := lowerCase stmt
  if startsWithWord low (t! "openqasm") && trim (low.drop (t! "openqasm").length) == t! "2.0" then .ok { r with sawVersion := true }
  else if startsWithWord low (t! "include") then
    if trim (low.drop (t! "include").length) ≠ t! "\"qelib1.inc\"" then .error (.throw "only include \"qelib1.inc\" is supported")
    else .ok r
  else if startsWithWord low (t! "qreg") then do
    let name ← parseRegisterName stmt (t! "qreg")
    if (r.qregs.lookup name).isSome then .error (.throw "duplicate qreg")
    else do
      let size ← parseRegisterDecl stmt (t! "qreg")
      pure { r with qregs := r.qregs ++ [(name, ⟨r.nQubits, size⟩)], nQubits := (r.nQubits + size) % 2 ^ 64 }
  else if startsWithWord low (t! "creg") then do
    let name ← parseRegisterName stmt (t! "creg")
    if (r.cregs.lookup name).isSome then .error (.throw "duplicate creg")
    else do
      let size ← parseRegisterDecl stmt (t! "creg")
      pure { r with cregs := r.cregs ++ [(name, ⟨r.nClbits, size⟩)], nClbits := (r.nClbits + size) % 2 ^ 64 }
  else if startsWithWord low (t! "barrier") then .ok { r with warnings := r.warnings ++ ["barrier is ignored"] }
  else if startsWithWord low (t! "measure") then r.parseMeasure stmt
  else if startsWithWord low (t! "reset") || startsWithWord low (t! "if") || startsWithWord low (t! "gate") || startsWithWord low (t! "opaque") then
    .error (.throw "is not supported yet")
  else r.parseGate lib stmt

/-- /repo/src/qasm/qasm2.cpp:982-985 `loads`, 477-482 `read`: the final state of the reader -/
noncomputable def loads (lib : Libc) (source : Text) : Res Reader := do
  let stmts ← splitStatements source
  stmts.foldlM (Reader.handle lib) .start

/-! ## writer -/

/-- `CircuitOpView` (/repo/src/qasm/qasm2.cpp:49-92) -/
inductive OpView where
  | ignored
  | named (name : Text) (targets controls values : List Nat)
  | rotation (name : Text) (angle : ℝ) (target : Nat) (controls values : List Nat)
  | ugate (name : Text) (params : List ℝ) (target : Nat) (controls values : List Nat)
  | measurement (target cbit : Nat) (reset : Bool)
  | unsupported

/-- `OpenQasm2Op` (/repo/src/qasm/qasm2.cpp:94-105) -/
inductive Qasm2Op where
  | gate (name : Text) (params : List Text) (qubits : List Nat)
  | measure (qubit cbit : Nat)

/-- /repo/src/qasm/qasm2.cpp:711-717 `single_target` -/
def singleTarget (targets : List Nat) : Res Nat :=
  match targets with
  | [t] => .ok t
  | _ => .error (.throw "unexpected target count")

/-- /repo/src/qasm/qasm2.cpp:742-814 `classify_gate_for_export` -/
noncomputable def classifyGate : Gate → Res OpView
  | .prob _ => .error (.throw "ProbabilisticGateImpl::target_qubit_list(): This function must not be used in ProbabilisticGateImpl.")
  | .meas g => do
    let t ← singleTarget (maskToVector g.o.t)
    pure (.measurement t g.cbit g.reset)
  | .det g =>
    let ts := g.targetQubitList
    let cs := g.controlQubitList
    let vs := g.controlValueList
    match g with
    | .ident => .ok .ignored
    | .one .X _ => .ok (.named (t! "x") ts cs vs)
    | .one .Y _ => .ok (.named (t! "y") ts cs vs)
    | .one .Z _ => .ok (.named (t! "z") ts cs vs)
    | .one .H _ => .ok (.named (t! "h") ts cs vs)
    | .one .S _ => .ok (.named (t! "s") ts cs vs)
    | .one .Sdag _ => .ok (.named (t! "sdg") ts cs vs)
    | .one .T _ => .ok (.named (t! "t") ts cs vs)
    | .one .Tdag _ => .ok (.named (t! "tdg") ts cs vs)
    | .swap _ => .ok (.named (t! "swap") ts cs vs)
    | .one (.RX θ) _ => do
      let t ← singleTarget ts
      pure (.rotation (t! "rx") θ t cs vs)
    | .one (.RY θ) _ => do
      let t ← singleTarget ts
      pure (.rotation (t! "ry") θ t cs vs)
    | .one (.RZ θ) _ => do
      let t ← singleTarget ts
      pure (.rotation (t! "rz") θ t cs vs)
    | .one (.U1 lam) _ => do
      let t ← singleTarget ts
      pure (.ugate (t! "u1") [lam] t cs vs)
    | .one (.U2 phi lam) _ => do
      let t ← singleTarget ts
      pure (.ugate (t! "u2") [phi, lam] t cs vs)
    | .one (.U3 theta phi lam) _ => do
      let t ← singleTarget ts
      pure (.ugate (t! "u3") [theta, phi, lam] t cs vs)
    | _ => .ok .unsupported

/-- an entry of the circuit (/repo/src/qasm/qasm2.cpp:993-998); parametric gates (818-833) are never supported -/
noncomputable def classifyItem : Item → Res OpView
  | .inl g => classifyGate g
  | .inr _ => .ok .unsupported

/-- /repo/src/qasm/qasm2.cpp:837-880 `lower_named_unitary_to_qasm2` -/
def lowerNamed (name : Text) (targets controls values : List Nat) : Res Qasm2Op :=
  if ¬ values.all (· == 1) then .error (.throw "OpenQASM 2.0 export only supports control value 1")
  else
    match controls with
    | [] => .ok (.gate name [] targets)
    | [a] =>
      if name = t! "x" then do
        let t ← singleTarget targets
        pure (.gate (t! "cx") [] [a, t])
      else if name = t! "z" then do
        let t ← singleTarget targets
        pure (.gate (t! "cz") [] [a, t])
      else if name = t! "swap" then
        match targets with
        | [b, c] => .ok (.gate (t! "cswap") [] [a, b, c])
        | _ => .error (.throw "unexpected target count for Swap")
      else if name = t! "y" ∨ name = t! "h" then do
        let t ← singleTarget targets
        pure (.gate ('c' :: name) [] [a, t])
      else .error (.throw "unsupported controlled gate for OpenQASM 2.0 export")
    | [a, b] =>
      if name = t! "x" then do
        let t ← singleTarget targets
        pure (.gate (t! "ccx") [] [a, b, t])
      else .error (.throw "unsupported controlled gate for OpenQASM 2.0 export")
    | _ => .error (.throw "unsupported controlled gate for OpenQASM 2.0 export")

/-- /repo/src/qasm/qasm2.cpp:884-900 `lower_rotation_to_qasm2` -/
noncomputable def lowerRotation (lib : Libc) (name : Text) (angle : ℝ) (target : Nat) (controls values : List Nat) : Res Qasm2Op :=
  if ¬ values.all (· == 1) then .error (.throw "OpenQASM 2.0 export only supports control value 1")
  else
    match controls with
    | [] => .ok (.gate name [lib.format angle] [target])
    | [a] => .ok (.gate ('c' :: name) [lib.format angle] [a, target])
    | _ => .error (.throw "unsupported controlled gate for OpenQASM 2.0 export")

/-- /repo/src/qasm/qasm2.cpp:904-924 `lower_u_to_qasm2` -/
noncomputable def lowerU (lib : Libc) (name : Text) (params : List ℝ) (target : Nat) (controls values : List Nat) : Res Qasm2Op :=
  if ¬ values.all (· == 1) then .error (.throw "OpenQASM 2.0 export only supports control value 1")
  else
    match controls with
    | [] => .ok (.gate name (params.map lib.format) [target])
    | [a] =>
      if name = t! "u1" ∨ name = t! "u3" then .ok (.gate ('c' :: name) (params.map lib.format) [a, target])
      else .error (.throw "unsupported controlled gate for OpenQASM 2.0 export")
    | _ => .error (.throw "unsupported controlled gate for OpenQASM 2.0 export")

/-- /repo/src/qasm/qasm2.cpp:928-950 `lower_to_qasm2` -/
noncomputable def lowerView (lib : Libc) : OpView → Res (Option Qasm2Op)
  | .ignored => .ok none
  | .named name ts cs vs => do
    let op ← lowerNamed name ts cs vs
    pure (some op)
  | .rotation name θ t cs vs => do
    let op ← lowerRotation lib name θ t cs vs
    pure (some op)
  | .ugate name ps t cs vs => do
    let op ← lowerU lib name ps t cs vs
    pure (some op)
  | .measurement t b reset =>
    if reset then .error (.throw "OpenQASM 2.0 export does not support reset-after-measurement gates")
    else .ok (some (.measure t b))
  | .unsupported => .error (.throw "unsupported gate for OpenQASM 2.0 export")

/-- `std::to_string` -/
def decimal (n : Nat) : Text :=
  if n < 10 then [Char.ofNat ('0'.toNat + n)] else decimal (n / 10) ++ [Char.ofNat ('0'.toNat + n % 10)]

/-- /repo/src/qasm/qasm2.cpp:732-738 `q`, `c` -/
def indexed (name : Char) (i : Nat) : Text := name :: '[' :: (decimal i ++ t! "]")

/-- texts separated by `", "` (/repo/src/qasm/qasm2.cpp:964-976) -/
def commaSeparated (l : List Text) : Text := (t! ", ").intercalate l

/-- /repo/src/qasm/qasm2.cpp:954-979 `write_qasm2_op` -/
def writeOp : Qasm2Op → Text
  | .measure t b => t! "measure " ++ indexed 'q' t ++ t! " -> " ++ indexed 'c' b ++ t! ";"
  | .gate name params qubits =>
    name ++ (if params.isEmpty then [] else '(' :: (commaSeparated params ++ t! ")")) ++ t! " " ++
      commaSeparated (qubits.map (indexed 'q')) ++ t! ";"

/-- /repo/src/qasm/qasm2.cpp:719-723 `required_qubits` -/
def requiredOf (qubits : List Nat) : Nat := qubits.foldl (fun n q => max n ((q + 1) % 2 ^ 64)) 0

/-- /repo/src/qasm/qasm2.cpp:719-730 `required_qubits`, `required_clbits` -/
def Qasm2Op.required : Qasm2Op → Nat × Nat
  | .gate _ _ qubits => (requiredOf qubits, 0)
  | .measure t b => (requiredOf [t], (b + 1) % 2 ^ 64)

/-- one iteration of /repo/src/qasm/qasm2.cpp:992-1005: required qubits and bits, body -/
noncomputable def dumpStep (lib : Libc) (s : Nat × Nat × Text) (g : Item) : Res (Nat × Nat × Text) := do
  let view ← classifyItem g
  match ← lowerView lib view with
  | none => pure s
  | some op => pure (max s.1 op.required.1, max s.2.1 op.required.2, s.2.2 ++ writeOp op ++ t! "\n")

/-- /repo/src/qasm/qasm2.cpp:987-1023 `dumps`; the classical conditions of the circuit are not looked at -/
noncomputable def dumps (lib : Libc) (C : Circuit) (nQubits : Option Nat) : Res Text := do
  let (requiredQ, requiredC, body) ← C.gates.foldlM (dumpStep lib) (0, 0, [])
  if nQubits.any (fun n => decide (n < requiredQ)) then
    .error (.throw "specified n_qubits is smaller than circuit operands")
  else if nQubits.getD requiredQ = 0 then .error (.throw "OpenQASM 2.0 export requires at least one qubit")
  else pure (t! "OPENQASM 2.0;\n" ++ t! "include \"qelib1.inc\";\n" ++ t! "qreg q[" ++ decimal (nQubits.getD requiredQ) ++ t! "];\n" ++
    (if requiredC ≠ 0 then t! "creg c[" ++ decimal requiredC ++ t! "];\n" else []) ++ body)

end Verif.Model
