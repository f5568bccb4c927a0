import Verif.Model.Pauli

/-! # Text form of Pauli operators

Strings are lists of characters.  The two stream extractions used by the constructor (`>> char`, `>> uint64_t` with
the default flags `skipws | dec` and the "C" locale) are modelled after the C++ standard library's description
([istream.extractors], [facet.num.get.virtuals]); they are not part of /repo. -/

namespace Verif.Model

/-- the white space of the "C" locale -/
def isSpace (c : Char) : Bool :=
  c = ' ' || c = '\t' || c = '\n' || c = '\x0b' || c = '\x0c' || c = '\r'

/-- `skipws` -/
def skipWs (s : List Char) : List Char := s.dropWhile isSpace

/-- the optional sign of a number -/
def readSign (s : List Char) : Bool × List Char :=
  match s with
  | '-' :: r => (true, r)
  | '+' :: r => (false, r)
  | _ => (false, s)

theorem length_readSign (s : List Char) : (readSign s).2.length ≤ s.length := by
  unfold readSign; split <;> simp

/-- `ss >> target` for `std::uint64_t target`: white space, an optional sign, decimal digits; failure when there are
no digits or the number is too large; a negative number is reduced modulo 2^64. -/
def readUInt (s : List Char) : Option (Nat × List Char) :=
  let s := readSign (skipWs s)
  let ds := s.2.takeWhile Char.isDigit
  let rest := s.2.dropWhile Char.isDigit
  if ds = [] then none
  else
    let v := Nat.ofDigitChars 10 ds 0
    if v ≥ 2 ^ 64 then none
    else some (if s.1 then (2 ^ 64 - v) % 2 ^ 64 else v, rest)

theorem length_readUInt {s : List Char} {v : Nat} {r : List Char} (h : readUInt s = some (v, r)) :
    r.length ≤ s.length := by
  have hd : ∀ l : List Char, (l.dropWhile Char.isDigit).length ≤ l.length :=
    fun l => (List.dropWhile_sublist _).length_le
  have hs : (skipWs s).length ≤ s.length := (List.dropWhile_sublist _).length_le
  unfold readUInt at h
  dsimp only at h
  have hg := length_readSign (skipWs s)
  split at h
  · cases h
  · split at h
    · cases h
    · simp only [Option.some.injEq, Prod.mk.injEq] at h
      rw [← h.2]
      exact le_trans (hd _) (le_trans hg hs)

/-- the lambda of /repo/src/operator/pauli_operator.cpp:19-25 -/
def pauliIdOfChar (c : Char) : Option Nat :=
  if c = 'I' ∨ c = 'i' then some 0
  else if c = 'X' ∨ c = 'x' then some 1
  else if c = 'Y' ∨ c = 'y' then some 2
  else if c = 'Z' ∨ c = 'z' then some 3
  else none

/-- the loop of /repo/src/operator/pauli_operator.cpp:11-27 -/
noncomputable def PauliOp.parseLoop (p : PauliOp) (s : List Char) : Res PauliOp :=
  match _hs : skipWs s with
  | [] => .ok p
  | c :: rest =>
    match _hr : readUInt rest with
    | none => .error (.throw "PauliOperator::PauliOperator: invalid pauli_string format")
    | some (q, rest') =>
      match pauliIdOfChar c with
      | none => .error (.throw "PauliOperator::PauliOperator: invalid pauli_string format")
      | some id =>
        if id ≠ 0 then
          match p.addSingle q id with
          | .error e => .error e
          | .ok p => p.parseLoop rest'
        else p.parseLoop rest'
termination_by s.length
decreasing_by
  all_goals
    have h1 : (skipWs s).length ≤ s.length := (List.dropWhile_sublist _).length_le
    have h2 := length_readUInt _hr
    rw [_hs] at h1
    simp at h1
    omega

/-- /repo/src/operator/pauli_operator.cpp:8-29, constructor from a string. -/
noncomputable def PauliOp.ofString (s : List Char) (coef : ℂ) : Res PauliOp :=
  PauliOp.parseLoop ⟨coef, 0, 0⟩ s

/-- the letters of /repo/src/operator/pauli_operator.cpp:110-122 -/
def pauliWord (id : Nat) : Res (List Char) :=
  match id with
  | 0 => .ok ['I', ' ']
  | 1 => .ok ['X', ' ']
  | 2 => .ok ['Y', ' ']
  | 3 => .ok ['Z', ' ']
  | _ => .error (.throw "PauliOperator::get_pauli_string: Invalid Pauli ID encountered")

/-- the loop of /repo/src/operator/pauli_operator.cpp:106-126; the two lists are indexed with the same counter up to
the length of the qubit list, so a shorter id list is an out-of-range access; `std::to_string` writes decimal digits -/
def pauliStringLoop : List Nat → List Nat → Res (List Char)
  | [], _ => .ok []
  | _ :: _, [] => .error (.ub "vector index out of range")
  | q :: qs, id :: ids => do
    let w ← pauliWord id
    let rest ← pauliStringLoop qs ids
    pure (w ++ Nat.toDigits 10 q ++ (if qs = [] then [] else [' ']) ++ rest)

/-- /repo/src/operator/pauli_operator.cpp:101-128 `get_pauli_string`. -/
def PauliOp.getString (p : PauliOp) : Res (List Char) := pauliStringLoop p.targetList p.idList

end Verif.Model
