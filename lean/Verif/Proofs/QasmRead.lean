import Verif.Proofs.QasmNumber

/-! # OpenQASM: reading a statement written by `dumps` -/

namespace Verif.Proofs
open Verif Verif.Spec Verif.Model
attribute [-simp] BitVec.getLsbD_eq_getElem

/-! ## operands -/

theorem indexed_chars {name : Char} {i : Nat} {c : Char} (h : c ∈ indexed name i) : c = name ∨ c = '[' ∨ c = ']' ∨ c.isDigit = true := by
  unfold indexed at h
  rcases List.mem_cons.1 h with h | h
  · exact .inl h
  · rcases List.mem_cons.1 h with h | h
    · exact .inr (.inl h)
    · rcases List.mem_append.1 h with h | h
      · exact .inr (.inr (.inr ((decimal_spec i).1 c h)))
      · exact .inr (.inr (.inl (List.mem_singleton.1 h)))

theorem digit_ne {c d : Char} (h : c.isDigit = true) (hd : d.isDigit = false) : c ≠ d := by
  rintro rfl
  rw [h] at hd; cases hd

theorem indexed_char {name : Char} (hn : name = 'q' ∨ name = 'c') {i : Nat} {c : Char} (h : c ∈ indexed name i) :
    isBlank c = false ∧ (c ≠ '(' ∧ c ≠ ')' ∧ c ≠ ',') ∧ (c ≠ ';' ∧ c ≠ '"' ∧ c ≠ '/') ∧ c ≠ '-' := by
  rcases indexed_chars h with rfl | rfl | rfl | h
  · rcases hn with rfl | rfl <;> decide
  · decide
  · decide
  · exact ⟨(isDigit_facts h).1, ⟨digit_ne h (by decide), digit_ne h (by decide), digit_ne h (by decide)⟩,
      ⟨digit_ne h (by decide), digit_ne h (by decide), digit_ne h (by decide)⟩, digit_ne h (by decide)⟩

theorem indexed_ne_nil (name : Char) (i : Nat) : indexed name i ≠ [] := by unfold indexed; simp

theorem indexed_trimmed {name : Char} (hn : name = 'q' ∨ name = 'c') (i : Nat) : Trimmed (indexed name i) :=
  Solid.trimmed fun _ hc => (indexed_char hn hc).1

theorem indexed_atom {name : Char} (hn : name = 'q' ∨ name = 'c') (i : Nat) : Atom (indexed name i) ∧ Trimmed (indexed name i) ∧ indexed name i ≠ [] :=
  ⟨fun _ hc => (indexed_char hn hc).2.1, indexed_trimmed hn i, indexed_ne_nil name i⟩

theorem trim_decimal (i : Nat) : trim (decimal i) = decimal i :=
  trim_of_trimmed (Solid.trimmed fun c hc => (isDigit_facts ((decimal_spec i).1 c hc)).1)

theorem bracketed_op {name : Char} (hn : name = 'q' ∨ name = 'c') (i : Nat) : bracketed (indexed name i) = some ([name], decimal i) := by
  have := bracketed_indexed (name := [name]) (ix := decimal i) (by
    intro c hc
    rw [List.mem_singleton.1 hc]
    rcases hn with rfl | rfl <;> decide) (fun c hc =>
      ⟨digit_ne ((decimal_spec i).1 c hc) (by decide), digit_ne ((decimal_spec i).1 c hc) (by decide)⟩)
  rw [trim_decimal] at this
  have e : trim [name] = [name] := by rcases hn with rfl | rfl <;> decide
  rw [e] at this
  exact this

theorem parseIndexed_op {name : Char} (hn : name = 'q' ∨ name = 'c') {regs : Registers} {n i : Nat} (hr : regs.lookup [name] = some ⟨0, n⟩)
    (hi : i < n) (h64 : n < 2 ^ 64) : parseIndexedRegister (indexed name i) regs = .ok i := by
  unfold parseIndexedRegister
  rw [trim_of_trimmed (indexed_trimmed hn i), bracketed_op hn]
  dsimp only
  rw [hr]
  dsimp only
  rw [wholeInteger_decimal (by omega)]
  dsimp only
  rw [if_neg (by omega), Nat.zero_add, Nat.mod_eq_of_lt (by omega)]

theorem mapM_operands {regs : Registers} {n : Nat} (hr : regs.lookup ['q'] = some ⟨0, n⟩) (h64 : n < 2 ^ 64) {qs : List Nat}
    (hq : ∀ q ∈ qs, q < n) : (qs.map (indexed 'q')).mapM (fun operand => parseIndexedRegister operand regs) = .ok qs := by
  induction qs with
  | nil => rfl
  | cons q qs ih =>
    rw [List.map_cons, List.mapM_cons, parseIndexed_op (.inl rfl) hr (hq q List.mem_cons_self) h64, ok_bind,
      ih fun b hb => hq b (List.mem_cons_of_mem _ hb), ok_bind]
    rfl

/-! ## gate statements -/

/-- the gate names that occur in exported texts -/
def exportNames : List Text := [t! "x", t! "y", t! "z", t! "h", t! "s", t! "sdg", t! "t", t! "tdg", t! "swap", t! "rx", t! "ry", t! "rz",
  t! "u1", t! "u2", t! "u3", t! "cx", t! "cz", t! "cy", t! "ch", t! "cswap", t! "ccx", t! "crx", t! "cry", t! "crz", t! "cu1", t! "cu3"]

/-- the words with a meaning of their own -/
def keywords : List Text := [t! "openqasm", t! "include", t! "qreg", t! "creg", t! "barrier", t! "measure", t! "reset", t! "if", t! "gate",
  t! "opaque"]

/-- what the reader needs of a name -/
structure GateName (name : Text) : Prop where
  ne : name ≠ []
  word : ∀ c ∈ name, isWord c = true
  low : lowerCase name = name
  kw : name ∉ keywords
  notU : name ≠ t! "u"
  plain : Plain name
  solid : Solid name

theorem exportNames_ok {name : Text} (h : name ∈ exportNames) : GateName name := by
  have key : ∀ name ∈ exportNames, name ≠ [] ∧ (∀ c ∈ name, isWord c = true) ∧ lowerCase name = name ∧ name ∉ keywords ∧ name ≠ t! "u" ∧
      (∀ c ∈ name, c ≠ ';' ∧ c ≠ '"' ∧ c ≠ '/') ∧ ∀ c ∈ name, isBlank c = false := by decide
  obtain ⟨h1, h2, h3, h4, h5, h6, h7⟩ := key name h
  exact ⟨h1, h2, h3, h4, h5, h6, h7⟩

theorem keywords_word : ∀ kw ∈ keywords, ∀ c ∈ kw, isWord c = true := by decide

/-- statements that start with a gate name go to `parse_gate` -/
theorem handle_gate (lib : Libc) (r : Reader) {name rest : Text} {d : Char} (hn : GateName name) (hd : d = ' ' ∨ d = '(')
    (ht : Trimmed (name ++ d :: rest)) : r.handle lib (name ++ d :: rest) = r.parseGate lib (name ++ d :: rest) := by
  have hl : lowerCase (name ++ d :: rest) = name ++ d :: lowerCase rest := by
    have e : d.toLower = d := by rcases hd with rfl | rfl <;> decide
    have := hn.low
    unfold lowerCase at *
    rw [List.map_append, this, List.map_cons, e]
  have hw : isWord d = false := by rcases hd with rfl | rfl <;> decide
  have key : ∀ kw ∈ keywords, startsWithWord (name ++ d :: lowerCase rest) kw = false := by
    intro kw hk
    rw [startsWithWord_iff (keywords_word kw hk) hn.word hw, decide_eq_false_iff_not]
    rintro rfl
    exact hn.kw hk
  unfold Reader.handle
  rw [trim_of_trimmed ht]
  dsimp only
  rw [hl]
  rw [key _ (by decide), key _ (by decide), key _ (by decide), key _ (by decide), key _ (by decide), key _ (by decide),
    key _ (by decide), key _ (by decide), key _ (by decide), key _ (by decide)]
  rfl

/-- the part of a statement after the name -/
def operandText (params : List Text) (qubits : List Nat) : Text :=
  (if params.isEmpty then [] else '(' :: (commaSeparated params ++ t! ")")) ++ t! " " ++ commaSeparated (qubits.map (indexed 'q'))

/-- a statement without its semicolon -/
def stmtOf : Qasm2Op → Text
  | .measure t b => t! "measure " ++ indexed 'q' t ++ t! " -> " ++ indexed 'c' b
  | .gate name params qubits => name ++ operandText params qubits

theorem writeOp_eq (op : Qasm2Op) : writeOp op = stmtOf op ++ t! ";" := by
  cases op with
  | gate => simp [writeOp, stmtOf, operandText]
  | measure => rfl

theorem operands_trimmed {qs : List Nat} (hne : qs ≠ []) :
    Trimmed (commaSeparated (qs.map (indexed 'q'))) ∧ commaSeparated (qs.map (indexed 'q')) ≠ [] ∧
      (commaSeparated (qs.map (indexed 'q'))).head? = some 'q' := by
  have h := commaSeparated_trimmed (l := qs.map (indexed 'q')) (by
    intro s hs
    obtain ⟨q, -, rfl⟩ := List.mem_map.1 hs
    exact ⟨indexed_trimmed (.inl rfl) q, indexed_ne_nil _ _⟩) (by simpa using hne)
  refine ⟨h.1, h.2.1, ?_⟩
  rw [h.2.2, List.head_map]
  rfl

theorem operands_plain (qs : List Nat) : Plain (commaSeparated (qs.map (indexed 'q'))) := by
  intro c hc
  rcases mem_commaSeparated hc with rfl | rfl | ⟨s, hs, h⟩
  · decide
  · decide
  · obtain ⟨q, -, rfl⟩ := List.mem_map.1 hs
    exact (indexed_char (.inl rfl) h).2.2.1

theorem operandText_shape (params : List Text) (qs : List Nat) : ∃ d rest, (d = ' ' ∨ d = '(') ∧ operandText params qs = d :: rest := by
  unfold operandText
  by_cases h : params.isEmpty
  · rw [if_pos h]; exact ⟨' ', _, .inl rfl, rfl⟩
  · rw [if_neg h]; exact ⟨'(', _, .inr rfl, rfl⟩

theorem head_append_ne {s t : Text} (h : s ≠ []) : (s ++ t).head? = s.head? := by
  cases s with
  | nil => exact absurd rfl h
  | cons c s => rfl

/-- the statement of a gate is one -/
theorem gate_stmt {name : Text} (hn : GateName name) {params : List Text} (hp : ∀ p ∈ params, NumberText p) {qs : List Nat} (hq : qs ≠ []) :
    Plain (name ++ operandText params qs) ∧ Trimmed (name ++ operandText params qs) ∧ name ++ operandText params qs ≠ [] := by
  obtain ⟨o1, o2, o3⟩ := operands_trimmed hq
  refine ⟨hn.plain.append ?_, ⟨?_, ?_⟩, by simp [hn.ne]⟩
  · intro c hc
    unfold operandText at hc
    rcases List.mem_append.1 hc with hc | hc
    · rcases List.mem_append.1 hc with hc | hc
      · split at hc
        · cases hc
        · rcases List.mem_cons.1 hc with rfl | hc
          · decide
          · rcases List.mem_append.1 hc with hc | hc
            · rcases mem_commaSeparated hc with rfl | rfl | ⟨s, hs, h⟩
              · decide
              · decide
              · exact (hp s hs).plain c h
            · rw [List.mem_singleton.1 hc]; decide
      · rw [List.mem_singleton.1 hc]; decide
    · exact operands_plain qs c hc
  · rw [head_append_ne hn.ne]
    exact hn.solid.trimmed.1
  · unfold operandText
    rw [← List.append_assoc, List.getLast?_append_of_ne_nil _ o2]
    exact o1.2

/-- `parse_gate` on a written gate: the table of gates decides -/
theorem parseGate_written {lib : Libc} {r : Reader} (hv : r.sawVersion = true) {n : Nat} (hr : r.qregs.lookup ['q'] = some ⟨0, n⟩)
    (h64 : n < 2 ^ 64) {name : Text} (hn : GateName name) {θs : List ℝ}
    (hθ : ∀ θ ∈ θs, NumberText (lib.format θ) ∧ parseAngle lib (lib.format θ) = .ok θ) {qs : List Nat} (hq : qs ≠ [])
    (hlt : ∀ q ∈ qs, q < n) (hnd : qs.Nodup) :
    r.parseGate lib (name ++ operandText (θs.map lib.format) qs) = (do
      match ← gateNamed name θs qs with
      | none => pure r
      | some d => r.add d) := by
  obtain ⟨o1, o2, o3⟩ := operands_trimmed hq
  obtain ⟨d, rest, hd, ed⟩ := operandText_shape (θs.map lib.format) qs
  have hw : isWord d = false := by rcases hd with rfl | rfl <;> decide
  have htake : (name ++ operandText (θs.map lib.format) qs).takeWhile isWord = name := by
    rw [ed]; exact takeWhile_word hn.word hw
  have hsplit : splitCommaList (commaSeparated (qs.map (indexed 'q'))) = .ok (qs.map (indexed 'q')) := splitCommaList_separated (by
    intro s hs
    obtain ⟨q, -, rfl⟩ := List.mem_map.1 hs
    exact indexed_atom (.inl rfl) q)
  have hpar : parseParams lib (trim (operandText (θs.map lib.format) qs)) = .ok (θs, commaSeparated (qs.map (indexed 'q'))) := by
    cases θs with
    | nil =>
      have e : operandText (List.map lib.format []) qs = ' ' :: commaSeparated (qs.map (indexed 'q')) := by simp [operandText]
      rw [e, trim_space (by decide), trim_of_trimmed o1]
      unfold parseParams
      split
      · rename_i h; rw [h] at o3; simp at o3
      · rfl
    | cons θ θs =>
      set ps := commaSeparated ((θ :: θs).map lib.format) with hps
      have e : operandText ((θ :: θs).map lib.format) qs = '(' :: (ps ++ ')' :: (t! " " ++ commaSeparated (qs.map (indexed 'q')))) := by
        unfold operandText
        rw [if_neg (by simp)]
        simp [hps]
      have hps' : ∀ c ∈ ps, c ≠ '(' ∧ c ≠ ')' := by
        intro c hc
        rcases mem_commaSeparated hc with rfl | rfl | ⟨s, hs, h⟩
        · decide
        · decide
        · obtain ⟨x, hx, rfl⟩ := List.mem_map.1 hs
          have := (hθ x hx).1.atom.1 c h
          exact ⟨this.1, this.2.1⟩
      have ht : Trimmed (operandText ((θ :: θs).map lib.format) qs) := by
        rw [e]
        refine ⟨by intro c hc; cases hc; decide, ?_⟩
        have : '(' :: (ps ++ ')' :: (t! " " ++ commaSeparated (qs.map (indexed 'q')))) =
          ('(' :: (ps ++ ')' :: t! " ")) ++ commaSeparated (qs.map (indexed 'q')) := by simp
        rw [this, List.getLast?_append_of_ne_nil _ o2]
        exact o1.2
      rw [trim_of_trimmed ht, e]
      unfold parseParams
      rw [closeIndex_params hps']
      dsimp only
      have h1 : (('(' :: (ps ++ ')' :: (t! " " ++ commaSeparated (qs.map (indexed 'q'))))).drop 1).take (ps.length + 1 - 1) = ps := by
        rw [List.drop_succ_cons, List.drop_zero, Nat.add_sub_cancel, List.take_left]
      have h2 : ('(' :: (ps ++ ')' :: (t! " " ++ commaSeparated (qs.map (indexed 'q'))))).drop (ps.length + 1 + 1) =
          ' ' :: commaSeparated (qs.map (indexed 'q')) := by
        rw [List.drop_succ_cons]
        have : ps ++ ')' :: (t! " " ++ commaSeparated (qs.map (indexed 'q'))) = (ps ++ [')']) ++ ' ' :: commaSeparated (qs.map (indexed 'q')) := by
          simp
        rw [this, List.drop_left' (by simp)]
      rw [h1, h2, hps, splitCommaList_separated (by
        intro s hs
        obtain ⟨x, hx, rfl⟩ := List.mem_map.1 hs
        exact (hθ x hx).1.atom), ok_bind, trim_space (by decide), trim_of_trimmed o1]
      have hm : ((θ :: θs).map lib.format).mapM (parseAngle lib) = .ok (θ :: θs) := by
        have : ∀ l : List ℝ, (∀ x ∈ l, parseAngle lib (lib.format x) = .ok x) → (l.map lib.format).mapM (parseAngle lib) = .ok l := by
          intro l hl
          induction l with
          | nil => rfl
          | cons x l ih =>
            rw [List.map_cons, List.mapM_cons, hl x List.mem_cons_self, ok_bind, ih fun y hy => hl y (List.mem_cons_of_mem _ hy), ok_bind]
            rfl
        exact this _ fun x hx => (hθ x hx).2
      rw [hm]
      rfl
  unfold Reader.parseGate
  rw [hv]
  dsimp only
  rw [if_pos rfl, htake, List.drop_left, hpar, ok_bind, if_neg (by rw [List.isEmpty_iff]; exact hn.ne)]
  rw [hsplit, ok_bind, mapM_operands hr h64 hlt, ok_bind, if_neg (not_not.2 hnd), hn.low, if_neg hn.notU]
  rfl

/-- reading the statement of a gate -/
theorem handle_written {lib : Libc} {r : Reader} (hv : r.sawVersion = true) {n : Nat} (hr : r.qregs.lookup ['q'] = some ⟨0, n⟩)
    (h64 : n < 2 ^ 64) {name : Text} (hn : GateName name) {θs : List ℝ}
    (hθ : ∀ θ ∈ θs, NumberText (lib.format θ) ∧ parseAngle lib (lib.format θ) = .ok θ) {qs : List Nat} (hq : qs ≠ [])
    (hlt : ∀ q ∈ qs, q < n) (hnd : qs.Nodup) {d : GateDesc} (hg : gateNamed name θs qs = .ok (some d)) {g : UGate} (hb : d.build = .ok g) :
    r.handle lib (stmtOf (.gate name (θs.map lib.format) qs)) = .ok { r with circuit := r.circuit.addGate (.det g) } := by
  have hp : ∀ p ∈ θs.map lib.format, NumberText p := by
    intro p hp
    obtain ⟨x, hx, rfl⟩ := List.mem_map.1 hp
    exact (hθ x hx).1
  have hs := gate_stmt hn hp hq
  have := parseGate_written hv hr h64 hn hθ hq hlt hnd
  rw [hg, ok_bind] at this
  show r.handle lib (name ++ operandText (θs.map lib.format) qs) = _
  obtain ⟨c, rest, hd, ed⟩ := operandText_shape (θs.map lib.format) qs
  rw [ed] at hs this ⊢
  rw [handle_gate lib r hn hd hs.2.1, this]
  unfold Reader.add
  dsimp only
  rw [hb]
  rfl

/-! ## measurements -/

theorem findArrow_first {s : Text} (h : ∀ c ∈ s, c ≠ '-') (rest : Text) : findArrow (s ++ '-' :: '>' :: rest) = some s.length := by
  induction s with
  | nil => rfl
  | cons c s ih =>
    have : (c == '-') = false := by simpa using h c List.mem_cons_self
    rw [List.cons_append, findArrow.eq_def]
    dsimp only
    rw [this, ih fun x hx => h x (List.mem_cons_of_mem _ hx)]
    rfl

theorem measure_stmt (t b : Nat) : Plain (stmtOf (.measure t b)) ∧ Trimmed (stmtOf (.measure t b)) ∧ stmtOf (.measure t b) ≠ [] := by
  refine ⟨?_, ⟨?_, ?_⟩, by simp [stmtOf]⟩
  · unfold stmtOf
    refine ((Plain.append ?_ ?_).append ?_).append ?_
    · intro c hc; exact (by decide : ∀ c ∈ t! "measure ", c ≠ ';' ∧ c ≠ '"' ∧ c ≠ '/') c hc
    · intro c hc; exact (indexed_char (.inl rfl) hc).2.2.1
    · intro c hc; exact (by decide : ∀ c ∈ t! " -> ", c ≠ ';' ∧ c ≠ '"' ∧ c ≠ '/') c hc
    · intro c hc; exact (indexed_char (.inr rfl) hc).2.2.1
  · intro c hc
    cases hc
    decide
  · unfold stmtOf
    rw [List.getLast?_append_of_ne_nil _ (indexed_ne_nil _ _)]
    exact (indexed_trimmed (.inr rfl) b).2

theorem measureOperand_op {name : Char} (hn : name = 'q' ∨ name = 'c') {regs : Registers} {n i : Nat} (hr : regs.lookup [name] = some ⟨0, n⟩)
    (hi : i < n) (h64 : n < 2 ^ 64) : parseMeasureOperand (indexed name i) regs = .ok ⟨i, 1⟩ := by
  unfold parseMeasureOperand
  rw [trim_of_trimmed (indexed_trimmed hn i)]
  dsimp only
  rw [if_pos (by unfold indexed; simp), parseIndexed_op hn hr hi h64]
  rfl

/-- reading the statement of a measurement -/
theorem handle_measure {lib : Libc} {r : Reader} {n m : Nat} (hr : r.qregs.lookup ['q'] = some ⟨0, n⟩) (h64 : n < 2 ^ 64)
    (hc : r.cregs.lookup ['c'] = some ⟨0, m⟩) (hm : m < 2 ^ 64) {t b : Nat} (ht : t < n) (hb : b < m) {g : MeasGate}
    (hg : mkMeas t b false = .ok g) :
    r.handle lib (stmtOf (.measure t b)) = .ok { r with circuit := r.circuit.addGate (.meas g) } := by
  have hs := measure_stmt t b
  have e : stmtOf (.measure t b) = t! "measure" ++ ' ' :: (indexed 'q' t ++ (t! " -> " ++ indexed 'c' b)) := by
    unfold stmtOf
    simp
  have hpm : r.parseMeasure (stmtOf (.measure t b)) = .ok { r with circuit := r.circuit.addGate (.meas g) } := by
    rw [e]
    unfold Reader.parseMeasure
    have hdrop : trim ((t! "measure" ++ ' ' :: (indexed 'q' t ++ (t! " -> " ++ indexed 'c' b))).drop (t! "measure").length) =
        (indexed 'q' t ++ [' ']) ++ '-' :: '>' :: ' ' :: indexed 'c' b := by
      rw [List.drop_left, trim_space (by decide), trim_of_trimmed]
      · simp
      · constructor
        · rw [head_append_ne (indexed_ne_nil _ _)]
          exact (indexed_trimmed (.inl rfl) t).1
        · rw [← List.append_assoc, List.getLast?_append_of_ne_nil _ (indexed_ne_nil _ _)]
          exact (indexed_trimmed (.inr rfl) b).2
    have harrow : findArrow ((indexed 'q' t ++ [' ']) ++ '-' :: '>' :: ' ' :: indexed 'c' b) = some (indexed 'q' t ++ [' ']).length := by
      apply findArrow_first
      intro c hc
      rcases List.mem_append.1 hc with hc | hc
      · exact (indexed_char (.inl rfl) hc).2.2.2
      · rw [List.mem_singleton.1 hc]; decide
    rw [hdrop]
    dsimp only
    rw [harrow]
    dsimp only
    have hdrop2 : ((indexed 'q' t ++ [' ']) ++ '-' :: '>' :: ' ' :: indexed 'c' b).drop ((indexed 'q' t ++ [' ']).length + 2) =
        ' ' :: indexed 'c' b := by
      have : (indexed 'q' t ++ [' ']) ++ '-' :: '>' :: ' ' :: indexed 'c' b = ((indexed 'q' t ++ [' ']) ++ ['-', '>']) ++ ' ' :: indexed 'c' b := by
        simp
      rw [this, List.drop_left' (by simp)]
    rw [List.take_left, hdrop2, trim_space_end (by decide) (indexed_trimmed (.inl rfl) t), trim_space (by decide),
      trim_of_trimmed (indexed_trimmed (.inr rfl) b), measureOperand_op (.inl rfl) hr ht h64, ok_bind,
      measureOperand_op (.inr rfl) hc hb hm, ok_bind]
    dsimp only
    rw [if_neg (by simp)]
    have h0 : (t + 0) % 2 ^ 64 = t := by rw [Nat.add_zero]; exact Nat.mod_eq_of_lt (by omega)
    have h1 : (b + 0) % 2 ^ 64 = b := by rw [Nat.add_zero]; exact Nat.mod_eq_of_lt (by omega)
    rw [show List.range 1 = [0] from rfl, List.foldlM_cons]
    rw [h0, h1, hg]
    rfl
  have hl : lowerCase (stmtOf (.measure t b)) = t! "measure" ++ ' ' :: lowerCase (indexed 'q' t ++ (t! " -> " ++ indexed 'c' b)) := by
    rw [e]
    unfold lowerCase
    rw [List.map_append]
    rfl
  have key : ∀ kw ∈ keywords, startsWithWord (t! "measure" ++ ' ' :: lowerCase (indexed 'q' t ++ (t! " -> " ++ indexed 'c' b))) kw =
      decide (t! "measure" = kw) := by
    intro kw hk
    exact startsWithWord_iff (keywords_word kw hk) (by decide) (by decide)
  unfold Reader.handle
  rw [trim_of_trimmed hs.2.1]
  dsimp only
  rw [hl]
  rw [key _ (by decide), key _ (by decide), key _ (by decide), key _ (by decide), key _ (by decide), key _ (by decide)]
  exact hpm

/-! ## header -/

theorem register_stmt {kw : Text} (hk : kw = t! "qreg" ∨ kw = t! "creg") {name : Char} (hn : name = 'q' ∨ name = 'c') (n : Nat) :
    Plain (kw ++ ' ' :: indexed name n) ∧ Trimmed (kw ++ ' ' :: indexed name n) ∧ kw ++ ' ' :: indexed name n ≠ [] := by
  refine ⟨?_, ⟨?_, ?_⟩, by simp⟩
  · intro c hc
    rcases List.mem_append.1 hc with hc | hc
    · rcases hk with rfl | rfl
      · exact (by decide : ∀ c ∈ t! "qreg", c ≠ ';' ∧ c ≠ '"' ∧ c ≠ '/') c hc
      · exact (by decide : ∀ c ∈ t! "creg", c ≠ ';' ∧ c ≠ '"' ∧ c ≠ '/') c hc
    · rcases List.mem_cons.1 hc with rfl | hc
      · decide
      · exact (indexed_char hn hc).2.2.1
  · intro c hc
    rcases hk with rfl | rfl <;> cases hc <;> decide
  · rw [List.getLast?_append_of_ne_nil _ (by simp), List.getLast?_cons_of_ne_nil (indexed_ne_nil _ _)]
    exact (indexed_trimmed hn n).2

theorem registerDecl {kw : Text} {name : Char} (hn : name = 'q' ∨ name = 'c') {n : Nat} (h0 : n ≠ 0) (h64 : n < 2 ^ 64) :
    parseRegisterDecl (kw ++ ' ' :: indexed name n) kw = .ok n ∧ parseRegisterName (kw ++ ' ' :: indexed name n) kw = .ok [name] := by
  constructor
  · unfold parseRegisterDecl
    rw [List.drop_left, trim_space (by decide), trim_of_trimmed (indexed_trimmed hn n), bracketed_op hn]
    dsimp only
    rw [wholeInteger_decimal h64]
    dsimp only
    rw [if_neg h0]
  · unfold parseRegisterName
    rw [List.drop_left, trim_space (by decide), trim_of_trimmed (indexed_trimmed hn n)]
    unfold indexed
    rcases hn with rfl | rfl <;> rfl

theorem handle_qreg {lib : Libc} {r : Reader} {n : Nat} (h0 : n ≠ 0) (h64 : n < 2 ^ 64) (hr : r.qregs = []) (hq : r.nQubits = 0) :
    r.handle lib (t! "qreg" ++ ' ' :: indexed 'q' n) = .ok { r with qregs := [(['q'], ⟨0, n⟩)], nQubits := n } := by
  obtain ⟨h1, h2⟩ := registerDecl (kw := t! "qreg") (.inl rfl) h0 h64
  have hl : lowerCase (t! "qreg" ++ ' ' :: indexed 'q' n) = t! "qreg" ++ ' ' :: lowerCase (indexed 'q' n) := by
    unfold lowerCase; rw [List.map_append]; rfl
  have key : ∀ kw ∈ keywords, startsWithWord (t! "qreg" ++ ' ' :: lowerCase (indexed 'q' n)) kw = decide (t! "qreg" = kw) := by
    intro kw hk
    exact startsWithWord_iff (keywords_word kw hk) (by decide) (by decide)
  unfold Reader.handle
  rw [trim_of_trimmed (register_stmt (.inl rfl) (.inl rfl) n).2.1]
  dsimp only
  rw [hl]
  rw [key _ (by decide), key _ (by decide), key _ (by decide), h2, h1, hr, hq, ok_bind, ok_bind, Nat.zero_add, Nat.mod_eq_of_lt h64]
  rfl

theorem handle_creg {lib : Libc} {r : Reader} {n : Nat} (h0 : n ≠ 0) (h64 : n < 2 ^ 64) (hr : r.cregs = []) (hq : r.nClbits = 0) :
    r.handle lib (t! "creg" ++ ' ' :: indexed 'c' n) = .ok { r with cregs := [(['c'], ⟨0, n⟩)], nClbits := n } := by
  obtain ⟨h1, h2⟩ := registerDecl (kw := t! "creg") (.inr rfl) h0 h64
  have hl : lowerCase (t! "creg" ++ ' ' :: indexed 'c' n) = t! "creg" ++ ' ' :: lowerCase (indexed 'c' n) := by
    unfold lowerCase; rw [List.map_append]; rfl
  have key : ∀ kw ∈ keywords, startsWithWord (t! "creg" ++ ' ' :: lowerCase (indexed 'c' n)) kw = decide (t! "creg" = kw) := by
    intro kw hk
    exact startsWithWord_iff (keywords_word kw hk) (by decide) (by decide)
  unfold Reader.handle
  rw [trim_of_trimmed (register_stmt (.inr rfl) (.inr rfl) n).2.1]
  dsimp only
  rw [hl]
  rw [key _ (by decide), key _ (by decide), key _ (by decide), key _ (by decide), h2, h1, hr, hq, ok_bind, ok_bind, Nat.zero_add,
    Nat.mod_eq_of_lt h64]
  rfl

theorem handle_version (lib : Libc) (r : Reader) : r.handle lib (t! "OPENQASM 2.0") = .ok { r with sawVersion := true } := by
  unfold Reader.handle
  rw [if_pos (by decide)]

theorem handle_include (lib : Libc) (r : Reader) : r.handle lib (t! "include \"qelib1.inc\"") = .ok r := by
  unfold Reader.handle
  rw [if_neg (by decide), if_pos (by decide), if_neg (by decide)]

end Verif.Proofs
