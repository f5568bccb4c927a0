import Verif.Proofs.QasmLooseStmt

/-!
# C86: what the OpenQASM reader accepts, and what it makes of it

C63 says what happens to the texts of OpenQASM 2.0 programs.  Here is the other direction: a text that is read without exception is a program of the
grammar of `Spec/QasmLoose.lean`, and the result is the meaning of that program.
-/

namespace Verif.Props
open Verif Verif.Spec Verif.Model Verif.Proofs

/-- C86: a text that is read without exception consists of the statements of the grammar of `Spec/QasmLoose.lean` with comments inserted, and the circuit,
the numbers of qubits and classical bits and the warnings are the ones these statements mean; in particular nothing of the text is skipped.  Missing: the
grammar is not the one of OpenQASM 2.0 (see `C86_not_strict`); the declared sizes must not exceed `2^64 - 1` in total (see C49). -/
theorem C86_accepted_partial {lib : Libc} (hlen : ∀ s, (lib.strtod s).2 ≤ s.length) {raw : List Char} {R : Reader} (h : loads lib raw = .ok R) :
    ∃ (clean : List Char) (prog : List LStmt), Commented raw clean ∧ ProgramOf (LooseStmt lib.strtod) prog clean ∧
      ((prog.map LStmt.qubits).sum < 2 ^ 64 → (prog.map LStmt.bits).sum < 2 ^ 64 → ∃ M, looseMeaning prog = some M ∧
        buildCircuit (M.instrs.map fun i => ⟨i, none⟩) = .ok R.circuit ∧ R.nQubits = totalSize M.qregs ∧ R.nClbits = totalSize M.cregs ∧
        R.warnings = M.warnings) := by
  obtain ⟨clean, prog, h1, h2, h3⟩ := loads_inv hlen h
  refine ⟨clean, prog, h1, h2, fun b1 b2 => ?_⟩
  obtain ⟨M, e, hr, s1, s2⟩ := h3 b1 b2
  refine ⟨M, e, hr.circ, ?_, ?_, hr.warn⟩
  · rw [hr.qc.2, hr.q, Nat.mod_eq_of_lt (by omega)]
  · rw [hr.cc.2, hr.c, Nat.mod_eq_of_lt (by omega)]

/-- a text with a sign in an index -/
def signedIndex : List Char := t! "qreg q[1];h q[+0];"

theorem signedIndex_split : splitStatements signedIndex = .ok [t! "qreg q[1]", t! "h q[+0]"] := by
  have hc : Commented signedIndex signedIndex := by
    unfold signedIndex
    repeat refine Commented.char _ _ _ (by decide) (by decide) ?_
    exact .nil
  obtain ⟨b, hb⟩ := scan_commented hc [] []
  have e : chop signedIndex false [] [] = ([t! "qreg q[1]", t! "h q[+0]"], [], false) := by decide
  unfold splitStatements
  rw [hb, e]
  rfl

theorem word_head {kw w t u : Text} {c : Char} (h : SameWord kw w) (e : w ++ t = c :: u) : kw = [] ∨ kw.head? = some c.toLower := by
  unfold SameWord at h
  cases w with
  | nil => exact .inl h.symm
  | cons a w =>
    rw [List.cons_append] at e
    cases e
    subst h
    exact .inr rfl

theorem gap_plus {g : Text} (h : Gap g) : '+' ∉ g ∧ '(' ∉ g := by
  constructor <;> intro hc <;> have := h _ hc <;> simp at this

theorem element_plus {x : Text × Nat} {s : Text} (h : ElementText x s) : '+' ∉ s := by
  obtain ⟨name, i, g, g', g'', ds, h1, h2, h3, h4, h5⟩ := h
  intro hc
  have n1 := (gap_plus h2).1
  have n2 := (gap_plus h3).1
  have n3 := (gap_plus h4).1
  have n4 : '+' ∉ name := fun hc => by have := h1.2 _ hc; simp [Char.isAlphanum, Char.isAlpha, Char.isUpper, Char.isLower, Char.isDigit] at this
  have n5 : '+' ∉ ds := fun hc => by have := h5.2.1 _ hc; simp [Char.isDigit] at this
  simp [n1, n2, n3, n4, n5] at hc

theorem comma_plus {l : List (Text × Nat)} {s : Text} (h : CommaText ElementText l s) : '+' ∉ s := by
  induction h with
  | one a g s g' hg hg' hp =>
    intro hc
    simp [(gap_plus hg).1, (gap_plus hg').1, element_plus hp] at hc
  | cons a l g s g' t hg hg' hp _ ih =>
    intro hc
    simp [(gap_plus hg).1, (gap_plus hg').1, element_plus hp, ih] at hc

/-- C86: the reader accepts texts that are no OpenQASM 2.0 programs: an index may carry a sign -/
theorem C86_not_strict (lib : Libc) : (∃ R, loads lib signedIndex = .ok R ∧ buildCircuit [⟨.gate (.one .H 0 [] []), none⟩] = .ok R.circuit) ∧
    ¬ ∃ prog clean, Commented signedIndex clean ∧ ProgramText prog clean := by
  constructor
  · unfold loads
    rw [signedIndex_split]
    exact ⟨_, rfl, rfl⟩
  · rintro ⟨prog, clean, hc, hp⟩
    obtain ⟨stmts, h1, h2⟩ := split_program hc hp
    rw [signedIndex_split] at h1
    cases h1
    cases h2 with
    | cons _ h2 =>
    cases h2 with
    | cons h2 _ =>
    obtain ⟨s, hs, e⟩ := h2
    obtain ⟨w, t, hpt⟩ := (stmt_quiet hs).2
    have e1 := (parts_trim hpt).1
    obtain ⟨g, g', hg, hg', es⟩ := trim_split s
    rw [← e] at es
    have hgn : g = [] := by
      cases g with
      | nil => rfl
      | cons c g =>
        exfalso
        have hb := hg c List.mem_cons_self
        have : s.head? = some c := by rw [es]; rfl
        rw [hpt.eq] at this
        cases w with
        | nil => exact hpt.ne rfl
        | cons a w =>
          cases this
          have := hpt.word c List.mem_cons_self
          simp only [List.mem_cons, List.not_mem_nil, or_false] at hb
          rcases hb with rfl | rfl | rfl | rfl | rfl | rfl <;> cases this
    subst hgn
    have hplus : '+' ∈ s := by rw [es]; simp
    have hparen : '(' ∉ s := by
      rw [es]
      intro h
      simp [(gap_plus hg').2] at h
    replace es : s = 'h' :: ((t! " q[+0]") ++ g') := by rw [es]; rfl
    cases hs with
    | version w g v h => 
      rw [List.append_assoc] at es
      rcases word_head h es with h | h <;> cases h
    | «include» w g file h =>
      rw [List.append_assoc] at es
      rcases word_head h es with h | h <;> cases h
    | qreg w g name s size h =>
      rw [List.append_assoc] at es
      rcases word_head h es with h | h <;> cases h
    | creg w g name s size h =>
      rw [List.append_assoc] at es
      rcases word_head h es with h | h <;> cases h
    | barrier w s h => rcases word_head h es with h | h <;> cases h
    | refused kw w s hk h =>
      have := word_head h es
      unfold refusedWords at hk
      simp only [List.map_cons, List.map_nil, List.mem_cons, List.not_mem_nil, or_false] at hk
      rcases hk with rfl | rfl | rfl | rfl <;> rcases this with h | h <;> cases h
    | measure w g s g' g'' t q c h =>
      rw [List.append_assoc] at es
      rcases word_head h es with h | h <;> cases h
    | gate name g s ops h1 h2 h3 h4 h5 =>
      rw [List.mem_append, List.mem_append] at hplus
      rcases hplus with (h | h) | h
      · have := h1.2 _ h
        simp [Char.isAlphanum, Char.isAlpha, Char.isUpper, Char.isLower, Char.isDigit] at this
      · exact (gap_plus h3).1 h
      · exact comma_plus h5 h
    | angles name g s t as ops =>
      exact hparen (by simp)

/-- C86: a library and a text with an angle, a trailing comma and a measurement that is accepted -/
example : ∃ (lib : Libc) (R : Reader), (∀ s, (lib.strtod s).2 ≤ s.length) ∧ loads lib (t! "qreg q[2];rx(2*pi) q[1],;creg c[2];measure q->c;") = .ok R ∧
    R.nQubits = 2 ∧ R.nClbits = 2 ∧ R.circuit.gates.length = 3 ∧ R.warnings = ["OPENQASM 2.0 header is missing"] := by
  have hc : Commented (t! "qreg q[2];rx(2*pi) q[1],;creg c[2];measure q->c;") (t! "qreg q[2];rx(2*pi) q[1],;creg c[2];measure q->c;") := by
    repeat refine Commented.char _ _ _ (by decide) (by decide) ?_
    exact .nil
  obtain ⟨b, hb⟩ := scan_commented hc [] []
  have hsplit : splitStatements (t! "qreg q[2];rx(2*pi) q[1],;creg c[2];measure q->c;") =
      .ok [t! "qreg q[2]", t! "rx(2*pi) q[1],", t! "creg c[2]", t! "measure q->c"] := by
    have e : chop (t! "qreg q[2];rx(2*pi) q[1],;creg c[2];measure q->c;") false [] [] =
      ([t! "qreg q[2]", t! "rx(2*pi) q[1],", t! "creg c[2]", t! "measure q->c"], [], false) := by decide
    unfold splitStatements
    rw [hb, e]
    rfl
  refine ⟨⟨fun s => (2, match s with | '2' :: _ => 1 | _ => 0), fun _ => []⟩, ?_⟩
  unfold loads
  rw [hsplit]
  refine ⟨_, ?_, rfl, rfl, rfl, rfl, rfl⟩
  intro s
  dsimp only
  split
  · simp
  · exact Nat.zero_le _

end Verif.Props
