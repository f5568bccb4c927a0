import Verif.Proofs.QasmStmt
import Verif.Proofs.QasmNumeral

/-!
# C63: reading an OpenQASM text gives the program its OpenQASM 2.0 meaning

`Spec/QasmText.lean` defines the texts (statements, operands, angle expressions with the usual precedence, white space, comments) and the meaning of a
program (registers one after another, gates of `qelib1.inc`, measurements of single elements and of whole registers, warnings) without reference to the
reader.
-/

namespace Verif.Props
open Verif Verif.Spec Verif.Model Verif.Proofs

/-- C63: the text of a program with comments inserted is read as the program says: the circuit is the one built by the factory functions from the meaning
of the program, the numbers of qubits and classical bits are the declared ones and the warnings are the stated ones; if the program has no meaning (an
unknown register or gate, a wrong number of operands or angles, equal operands, a division by zero, registers of different sizes, an index out of range …)
an exception is thrown.  Missing: comments count as nothing here, not as white space (see `C63_comment_joins_words`), so that a comment must not be
the only separator of two words; the declared sizes must not exceed `2^64 - 1` in total (see C49). -/
theorem C63_meaning_partial {lib : Libc} {num : Numeral → ℝ} (hs : StrtodReads lib.strtod num) {prog : List QStmt} {raw clean : List Char}
    (hc : Commented raw clean) (hp : ProgramText prog clean) (hq : (prog.map QStmt.qubits).sum < 2 ^ 64) (hb : (prog.map QStmt.bits).sum < 2 ^ 64) :
    match programMeaning num prog with
    | some M => ∃ R, loads lib raw = .ok R ∧ buildCircuit (M.instrs.map fun i => ⟨i, none⟩) = .ok R.circuit ∧ R.nQubits = totalSize M.qregs ∧
        R.nClbits = totalSize M.cregs ∧ R.warnings = M.warnings
    | none => ∃ m, loads lib raw = .error (.throw m) := by
  have := loads_sim hs hc hp hq hb
  cases hm : programMeaning num prog with
  | none =>
    rw [hm] at this
    exact this
  | some M =>
    rw [hm] at this
    obtain ⟨R, h, hr⟩ := this
    obtain ⟨s1, s2⟩ := meaning_sizes hm
    refine ⟨R, h, hr.circ, ?_, ?_, hr.warn⟩
    · rw [hr.qc.2, hr.q, Nat.mod_eq_of_lt (by omega)]
    · rw [hr.cc.2, hr.c, Nat.mod_eq_of_lt (by omega)]

/-- C63 does not hold with comments as white space: here the comment separates `h` from its operand, the program means one gate `H`, and the reader
throws an exception because the comment and its end of line vanish -/
theorem C63_comment_joins_words : ∃ (prog : List QStmt) (raw clean : List Char), Spaced raw clean ∧ ProgramText prog clean ∧
    (∀ num, programMeaning num prog = some ⟨[("q".toList, 1)], [], [.gate (.one .H 0 [] [])], true, ["OPENQASM 2.0 header is missing"]⟩) ∧
    ∀ lib, ∃ m, loads lib raw = .error (.throw m) := by
  refine ⟨[.qreg "q".toList 1, .gate "h".toList [] [("q".toList, 0)]], t! "qreg q[1];h//c\nq[0];", t! "qreg q[1];h\nq[0];", ?_, ?_, ?_, ?_⟩
  · repeat refine Spaced.char _ _ _ (by decide) (by decide) ?_
    refine Spaced.line ['c'] (t! "q[0];") (t! "q[0];") (by decide) ?_
    repeat refine Spaced.char _ _ _ (by decide) (by decide) ?_
    exact .nil
  · refine ProgramText.cons _ _ [] (t! "qreg q[1]") [] (t! "h\nq[0];") gap_nil gap_nil ?_ ?_
    · exact StmtText.qreg (t! "qreg") (t! " ") (t! "q") (t! "q[1]") 1 (by unfold SameWord; decide) (by unfold Gap; decide) (by decide)
        (ElementText.mk (t! "q") 1 [] [] [] (t! "1") (by unfold Ident; decide) gap_nil gap_nil gap_nil (by unfold Digits; decide))
    refine ProgramText.cons _ _ [] (t! "h\nq[0]") [] [] gap_nil gap_nil ?_ (.nil [] gap_nil)
    exact StmtText.gate (t! "h") (t! "\n") (t! "q[0]") [(t! "q", 0)] (by unfold Ident; decide) (by decide) (by unfold Gap; decide) (by decide)
      (.one _ [] (t! "q[0]") [] gap_nil gap_nil
        (ElementText.mk (t! "q") 0 [] [] [] (t! "0") (by unfold Ident; decide) gap_nil gap_nil gap_nil (by unfold Digits; decide)))
  · intro num
    simp [programMeaning, QStmt.exec, flatIndex, qelibGate, qelibTable]
  · intro lib
    have hsplit : splitStatements (t! "qreg q[1];h//c\nq[0];") = .ok [t! "qreg q[1]", t! "hq[0]"] := by
      have hc : Commented (t! "qreg q[1];h//c\nq[0];") (t! "qreg q[1];hq[0];") := by
        repeat refine Commented.char _ _ _ (by decide) (by decide) ?_
        refine Commented.line ['c'] (t! "q[0];") (t! "q[0];") (by decide) ?_
        repeat refine Commented.char _ _ _ (by decide) (by decide) ?_
        exact .nil
      obtain ⟨b, hb⟩ := scan_commented hc [] []
      have e : chop (t! "qreg q[1];hq[0];") false [] [] = ([t! "qreg q[1]", t! "hq[0]"], [], false) := by decide
      unfold splitStatements
      rw [hb, e]
      rfl
    refine ⟨"unknown register", ?_⟩
    unfold loads
    rw [hsplit]
    rfl

/-- a program with a comment, a header, registers, a gate with an angle and a measurement of a whole register -/
def meaningProgram : List QStmt :=
  [.version "2.0".toList, .qreg "q".toList 2, .gate "RX".toList [.minus .pi] [("q".toList, 1)], .creg "c".toList 2, .measure ⟨"q".toList, none⟩ ⟨"c".toList, none⟩]

/-- its text without the comment -/
def meaningClean : List Char := t! "OPENQASM 2.0;qreg q[2];RX( -pi ) q[1];creg c[2];measure q->c;"

/-- its text -/
def meaningRaw : List Char := t! "OPENQASM 2.0;qreg q[2];/* pi * */RX( -pi ) q[1];creg c[2];measure q->c;//;"

/-- C63: the hypotheses are met by this program, and it has a meaning -/
example : ∃ (lib : Libc) (num : Numeral → ℝ), StrtodReads lib.strtod num ∧ Commented meaningRaw meaningClean ∧ ProgramText meaningProgram meaningClean ∧
    (meaningProgram.map QStmt.qubits).sum < 2 ^ 64 ∧ (meaningProgram.map QStmt.bits).sum < 2 ^ 64 ∧
    programMeaning num meaningProgram = some ⟨[("q".toList, 2)], [("c".toList, 2)],
      [.gate (.one (.RX (-Real.pi)) 1 [] []), .measure 0 0 false, .measure 1 1 false], true, []⟩ := by
  obtain ⟨lib, num, h⟩ := exists_strtod
  refine ⟨lib, num, h, ?_, ?_, by decide, by decide, ?_⟩
  · unfold meaningRaw meaningClean
    repeat refine Commented.char _ _ _ (by decide) (by decide) ?_
    refine Commented.block (t! " pi * ") (t! "RX( -pi ) q[1];creg c[2];measure q->c;//;") (t! "RX( -pi ) q[1];creg c[2];measure q->c;") (by decide) ?_
    repeat refine Commented.char _ _ _ (by decide) (by decide) ?_
    exact .lastLine (t! ";") (by decide)
  · unfold meaningClean meaningProgram
    refine ProgramText.cons _ _ [] (t! "OPENQASM 2.0") [] (t! "qreg q[2];RX( -pi ) q[1];creg c[2];measure q->c;") gap_nil gap_nil ?_ ?_
    · exact StmtText.version (t! "OPENQASM") (t! " ") (t! "2.0") (by unfold SameWord; decide) (by unfold Gap; decide) (by decide) (by decide) (by decide)
    refine ProgramText.cons _ _ [] (t! "qreg q[2]") [] (t! "RX( -pi ) q[1];creg c[2];measure q->c;") gap_nil gap_nil ?_ ?_
    · exact StmtText.qreg (t! "qreg") (t! " ") (t! "q") (t! "q[2]") 2 (by unfold SameWord; decide) (by unfold Gap; decide) (by decide)
        (ElementText.mk (t! "q") 2 [] [] [] (t! "2") (by unfold Ident; decide) gap_nil gap_nil gap_nil (by unfold Digits; decide))
    refine ProgramText.cons _ _ [] (t! "RX( -pi ) q[1]") [] (t! "creg c[2];measure q->c;") gap_nil gap_nil ?_ ?_
    · exact StmtText.angles (t! "RX") [] (t! " -pi ") (t! " q[1]") [.minus .pi] [(t! "q", 1)] (by unfold Ident; decide) (by decide) gap_nil
        (.some _ _ (.one _ (t! " ") (t! "-pi") (t! " ") (by unfold Gap; decide) (by unfold Gap; decide)
          (.sum _ _ (.product _ _ (.minus _ _ (.signed _ _ .pi))))))
        (.one _ (t! " ") (t! "q[1]") [] (by unfold Gap; decide) gap_nil
          (ElementText.mk (t! "q") 1 [] [] [] (t! "1") (by unfold Ident; decide) gap_nil gap_nil gap_nil (by unfold Digits; decide)))
    refine ProgramText.cons _ _ [] (t! "creg c[2]") [] (t! "measure q->c;") gap_nil gap_nil ?_ ?_
    · exact StmtText.creg (t! "creg") (t! " ") (t! "c") (t! "c[2]") 2 (by unfold SameWord; decide) (by unfold Gap; decide) (by decide)
        (ElementText.mk (t! "c") 2 [] [] [] (t! "2") (by unfold Ident; decide) gap_nil gap_nil gap_nil (by unfold Digits; decide))
    refine ProgramText.cons _ _ [] (t! "measure q->c") [] [] gap_nil gap_nil ?_ (.nil [] gap_nil)
    exact StmtText.measure (t! "measure") (t! " ") (t! "q") [] [] (t! "c") _ _ (by unfold SameWord; decide) (by unfold Gap; decide) (by decide) gap_nil gap_nil
      (.whole _ (by unfold Ident; decide)) (.whole _ (by unfold Ident; decide))
  · simp [programMeaning, meaningProgram, QStmt.exec, flatIndex, qelibGate, qelibTable, QOperand.elements, AngleExpr.eval, List.range_succ]

end Verif.Props
