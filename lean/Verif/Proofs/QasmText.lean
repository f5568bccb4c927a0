import Verif.Model.Qasm
import Verif.Proofs.MergeOne
import Mathlib.Data.List.Basic
import Mathlib.Tactic.IntervalCases

/-! # OpenQASM: texts, statements, integers, comma lists -/

namespace Verif.Proofs
open Verif Verif.Spec Verif.Model
attribute [-simp] BitVec.getLsbD_eq_getElem

/-! ## white space -/

/-- neither the first nor the last character is white space -/
def Trimmed (s : Text) : Prop := (∀ c ∈ s.head?, isBlank c = false) ∧ ∀ c ∈ s.getLast?, isBlank c = false

theorem dropWhile_head {p : Char → Bool} {s : Text} (h : ∀ c ∈ s.head?, p c = false) : s.dropWhile p = s := by
  cases s with
  | nil => rfl
  | cons c s => rw [List.dropWhile_cons, h c rfl]; rfl

theorem trim_of_trimmed {s : Text} (h : Trimmed s) : trim s = s := by
  unfold trim
  rw [dropWhile_head h.1, dropWhile_head (by rw [List.head?_reverse]; exact h.2), List.reverse_reverse]

theorem trim_space {c : Char} (hc : isBlank c = true) (s : Text) : trim (c :: s) = trim s := by
  unfold trim
  rw [List.dropWhile_cons, hc]
  rfl

theorem trim_space_end {c : Char} (hc : isBlank c = true) {s : Text} (h : Trimmed s) : trim (s ++ [c]) = s := by
  cases s with
  | nil => rw [List.nil_append, trim_space hc]; rfl
  | cons d s =>
    unfold trim
    rw [dropWhile_head (s := d :: s ++ [c]) (by simpa using h.1 d rfl), List.reverse_append, List.reverse_singleton,
      List.singleton_append, List.dropWhile_cons, hc]
    simp only [if_true]
    rw [dropWhile_head (by rw [List.head?_reverse]; exact h.2), List.reverse_reverse]

/-- no white space at all -/
def Solid (s : Text) : Prop := ∀ c ∈ s, isBlank c = false

theorem Solid.trimmed {s : Text} (h : Solid s) : Trimmed s :=
  ⟨fun c hc => h c (List.mem_of_mem_head? hc), fun c hc => h c (List.mem_of_mem_getLast? hc)⟩

theorem trimmed_ends {c d : Char} {s : Text} (hc : isBlank c = false) (hd : isBlank d = false) : Trimmed (c :: (s ++ [d])) := by
  constructor
  · intro x hx; cases hx; exact hc
  · intro x hx
    rw [← List.cons_append, List.getLast?_concat] at hx
    cases hx; exact hd

/-! ## statements -/

/-- no character with a meaning for `split_statements` -/
def Plain (s : Text) : Prop := ∀ c ∈ s, c ≠ ';' ∧ c ≠ '"' ∧ c ≠ '/'

theorem Plain.append {s t : Text} (hs : Plain s) (ht : Plain t) : Plain (s ++ t) := by
  intro c hc
  rcases List.mem_append.1 hc with h | h
  · exact hs c h
  · exact ht c h

theorem scan_plain_char {c : Char} (h : c ≠ ';' ∧ c ≠ '"' ∧ c ≠ '/') (cs cur : Text) (st : List Text) :
    scan (c :: cs) ⟨st, cur, false, false, false⟩ = scan cs ⟨st, cur ++ [c], false, false, false⟩ := by
  have h1 : (c == ';') = false := by simpa using h.1
  have h2 : (c == '"') = false := by simpa using h.2.1
  have h3 : (c == '/') = false := by simpa using h.2.2
  rw [scan.eq_def]
  simp only [h1, h2, h3, Bool.false_eq_true, if_false, Bool.not_false, Bool.true_and, Bool.false_and]

theorem scan_plain {s : Text} (h : Plain s) (rest cur : Text) (st : List Text) :
    scan (s ++ rest) ⟨st, cur, false, false, false⟩ = scan rest ⟨st, cur ++ s, false, false, false⟩ := by
  induction s generalizing cur with
  | nil => simp
  | cons c s ih =>
    rw [List.cons_append, scan_plain_char (h c List.mem_cons_self), ih (fun d hd => h d (List.mem_cons_of_mem _ hd)), List.append_assoc]
    rfl

theorem scan_semicolon (rest cur : Text) (st : List Text) :
    scan (';' :: rest) ⟨st, cur, false, false, false⟩ =
      scan rest ⟨if (trim cur).isEmpty then st else st ++ [trim cur], [], false, false, false⟩ := by
  rw [scan.eq_def]
  simp

/-- one statement on a new line -/
theorem scan_statement {s : Text} (hp : Plain s) (ht : Trimmed s) (hne : s ≠ []) (rest : Text) (st : List Text) :
    scan ('\n' :: (s ++ ';' :: rest)) ⟨st, [], false, false, false⟩ = scan rest ⟨st ++ [s], [], false, false, false⟩ := by
  rw [scan_plain_char (by decide), scan_plain hp, scan_semicolon]
  have : trim ([] ++ ['\n'] ++ s) = s := (trim_space (by decide) s).trans (trim_of_trimmed ht)
  rw [this]
  cases s with
  | nil => exact absurd rfl hne
  | cons c s => rfl

/-- many statements, each on a line of its own -/
theorem scan_statements (l : List Text) (hl : ∀ s ∈ l, Plain s ∧ Trimmed s ∧ s ≠ []) (st : List Text) :
    scan ('\n' :: l.flatMap fun s => s ++ t! ";\n") ⟨st, [], false, false, false⟩ = ⟨st ++ l, t! "\n", false, false, false⟩ := by
  induction l generalizing st with
  | nil => simp [scan]
  | cons s l ih =>
    obtain ⟨h1, h2, h3⟩ := hl s List.mem_cons_self
    rw [List.flatMap_cons, List.append_assoc]
    show scan ('\n' :: (s ++ ';' :: ('\n' :: l.flatMap fun s => s ++ t! ";\n"))) _ = _
    rw [scan_statement h1 h2 h3, ih (fun s hs => hl s (List.mem_cons_of_mem _ hs)), List.append_assoc]
    rfl

/-- a quotation mark opens or closes a string -/
theorem scan_quote (cs cur : Text) (st : List Text) (b : Bool) :
    scan ('"' :: cs) ⟨st, cur, false, false, b⟩ = scan cs ⟨st, cur ++ ['"'], false, false, !b⟩ := by
  rw [scan.eq_def]
  simp

theorem scan_string {s : Text} (h : ∀ c ∈ s, c ≠ '"') (rest cur : Text) (st : List Text) :
    scan (s ++ rest) ⟨st, cur, false, false, true⟩ = scan rest ⟨st, cur ++ s, false, false, true⟩ := by
  induction s generalizing cur with
  | nil => simp
  | cons c s ih =>
    have h1 : (c == '"') = false := by simpa using h c List.mem_cons_self
    rw [List.cons_append, scan.eq_def]
    simp only [h1, Bool.false_eq_true, if_false, Bool.not_true, Bool.false_and]
    rw [ih fun d hd => h d (List.mem_cons_of_mem _ hd), List.append_assoc]
    rfl

/-- the beginning of every exported text -/
theorem scan_header (rest : Text) : scan (t! "OPENQASM 2.0;\ninclude \"qelib1.inc\";" ++ rest) ⟨[], [], false, false, false⟩ =
    scan rest ⟨[t! "OPENQASM 2.0", t! "include \"qelib1.inc\""], [], false, false, false⟩ := by
  have e : t! "OPENQASM 2.0;\ninclude \"qelib1.inc\";" ++ rest =
    t! "OPENQASM 2.0" ++ ';' :: (t! "\ninclude " ++ '"' :: (t! "qelib1.inc" ++ '"' :: ';' :: rest)) := rfl
  have p1 : Plain (t! "OPENQASM 2.0") := by unfold Plain; decide
  have p2 : Plain (t! "\ninclude ") := by unfold Plain; decide
  rw [e, scan_plain p1, scan_semicolon, scan_plain p2, scan_quote, Bool.not_false, scan_string (by decide), scan_quote, Bool.not_true, scan_semicolon]
  rfl

/-- the statements of an exported text -/
theorem split_exported (l : List Text) (hl : ∀ s ∈ l, Plain s ∧ Trimmed s ∧ s ≠ []) :
    splitStatements (t! "OPENQASM 2.0;\ninclude \"qelib1.inc\";\n" ++ l.flatMap fun s => s ++ t! ";\n") =
      .ok (t! "OPENQASM 2.0" :: t! "include \"qelib1.inc\"" :: l) := by
  have : (t! "OPENQASM 2.0;\ninclude \"qelib1.inc\";\n" ++ l.flatMap fun s => s ++ t! ";\n") =
      t! "OPENQASM 2.0;\ninclude \"qelib1.inc\";" ++ '\n' :: l.flatMap fun s => s ++ t! ";\n" := rfl
  unfold splitStatements
  rw [this, scan_header, scan_statements l hl]
  rfl

/-! ## words -/

theorem startsWithWord_iff {kw name rest : Text} {d : Char} (hk : ∀ c ∈ kw, isWord c = true) (hn : ∀ c ∈ name, isWord c = true)
    (hd : isWord d = false) : startsWithWord (name ++ d :: rest) kw = decide (name = kw) := by
  unfold startsWithWord
  induction kw generalizing name with
  | nil =>
    cases name with
    | nil => simp [hd]
    | cons c cs => simp [hn c List.mem_cons_self]
  | cons k ks ih =>
    cases name with
    | nil =>
      have : (k == d) = false := by
        rw [beq_eq_false_iff_ne]
        rintro rfl
        rw [hk k List.mem_cons_self] at hd
        cases hd
      simp [this, List.isPrefixOf]
    | cons c cs =>
      have := ih (fun x hx => hk x (List.mem_cons_of_mem _ hx)) (fun x hx => hn x (List.mem_cons_of_mem _ hx))
      rw [List.cons_append, List.length_cons, List.drop_succ_cons, List.isPrefixOf_cons_cons]
      by_cases e : k = c
      · subst e
        simp only [BEq.rfl, Bool.true_and]
        rw [this]
        simp
      · have : (k == c) = false := by simpa using e
        rw [this]
        have e' : ¬ c = k := fun h => e h.symm
        simp [e']

theorem takeWhile_word {name rest : Text} {d : Char} {p : Char → Bool} (hn : ∀ c ∈ name, p c = true) (hd : p d = false) :
    (name ++ d :: rest).takeWhile p = name := by
  induction name with
  | nil => simp [hd]
  | cons c cs ih =>
    rw [List.cons_append, List.takeWhile_cons, hn c List.mem_cons_self]
    simp only [if_true]
    rw [ih fun x hx => hn x (List.mem_cons_of_mem _ hx)]

theorem takeWhile_all {s : Text} {p : Char → Bool} (hn : ∀ c ∈ s, p c = true) : s.takeWhile p = s := by
  induction s with
  | nil => rfl
  | cons c s ih => rw [List.takeWhile_cons, if_pos (hn c List.mem_cons_self), ih fun x hx => hn x (List.mem_cons_of_mem _ hx)]

theorem dropWhile_all {s : Text} {p : Char → Bool} (hn : ∀ c ∈ s, p c = true) : s.dropWhile p = [] := by
  induction s with
  | nil => rfl
  | cons c s ih => rw [List.dropWhile_cons, if_pos (hn c List.mem_cons_self), ih fun x hx => hn x (List.mem_cons_of_mem _ hx)]

/-! ## integers -/

theorem digit_char {k : Nat} (h : k < 10) : (Char.ofNat ('0'.toNat + k)).isDigit = true ∧ (Char.ofNat ('0'.toNat + k)).toNat = 48 + k := by
  interval_cases k <;> decide

theorem decimal_spec (n : Nat) : (∀ c ∈ decimal n, c.isDigit = true) ∧ decimal n ≠ [] ∧ digitsValue (decimal n) = n := by
  induction n using Nat.strongRecOn with
  | ind n ih =>
    rw [decimal]
    split
    · rename_i h
      obtain ⟨h1, h2⟩ := digit_char h
      refine ⟨?_, by simp, ?_⟩
      · intro c hc
        rw [List.mem_singleton.1 hc]
        exact h1
      · unfold digitsValue
        rw [List.foldl_cons, List.foldl_nil, h2]
        show 0 * 10 + (48 + n - 48) = n
        omega
    · rename_i h
      obtain ⟨i1, i2, i3⟩ := ih (n / 10) (by omega)
      obtain ⟨h1, h2⟩ := digit_char (k := n % 10) (by omega)
      refine ⟨?_, by simp, ?_⟩
      · intro c hc
        rcases List.mem_append.1 hc with hc | hc
        · exact i1 c hc
        · rw [List.mem_singleton.1 hc]
          exact h1
      · unfold digitsValue at i3 ⊢
        rw [List.foldl_append, i3, List.foldl_cons, List.foldl_nil, h2]
        show n / 10 * 10 + (48 + n % 10 - 48) = n
        omega

theorem isDigit_range {c : Char} (h : c.isDigit = true) : 48 ≤ c.toNat ∧ c.toNat ≤ 57 := by
  unfold Char.isDigit at h
  rw [Bool.and_eq_true, decide_eq_true_iff, decide_eq_true_iff] at h
  exact h

theorem isDigit_facts {c : Char} (h : c.isDigit = true) :
    isBlank c = false ∧ isWord c = true ∧ c.isAlpha = false ∧ ∀ d : Char, d.isDigit = false → (c == d) = false := by
  have hne : ∀ d : Char, d.isDigit = false → (c == d) = false := by
    intro d hd
    rw [beq_eq_false_iff_ne]
    rintro rfl
    rw [h] at hd; cases hd
  refine ⟨?_, ?_, ?_, hne⟩
  · unfold isBlank
    rw [hne _ (by decide), hne _ (by decide), hne _ (by decide), hne _ (by decide), hne _ (by decide), hne _ (by decide)]
    rfl
  · unfold isWord Char.isAlphanum
    rw [h]; simp
  · have := isDigit_range h
    have hc : c.toNat = c.val.toNat := rfl
    rw [hc] at this
    unfold Char.isAlpha Char.isUpper Char.isLower
    rw [Bool.or_eq_false_iff]
    constructor
    · rw [decide_eq_false_iff_not]
      rintro ⟨h1, -⟩
      have : 65 ≤ c.val.toNat := h1
      omega
    · rw [Bool.and_eq_false_iff, decide_eq_false_iff_not]
      left
      intro h1
      have : 97 ≤ c.val.toNat := h1
      omega

theorem wholeInteger_decimal {n : Nat} (h : n < 2 ^ 64) : wholeInteger (decimal n) = some n := by
  obtain ⟨h1, h2, h3⟩ := decimal_spec n
  have hs : strtoull (decimal n) = some (n, []) := by
    have hm : strtoull (decimal n) = if ((decimal n).takeWhile Char.isDigit).isEmpty then none
        else some (if digitsValue ((decimal n).takeWhile Char.isDigit) ≥ 2 ^ 64 then 2 ^ 64 - 1
          else digitsValue ((decimal n).takeWhile Char.isDigit), (decimal n).dropWhile Char.isDigit) := by
      unfold strtoull
      split
      rename_i neg s e
      split at e
      · rename_i s' e'
        exact absurd (h1 '-' (by rw [e']; exact List.mem_cons_self)) (by decide)
      · rename_i s' e'
        exact absurd (h1 '+' (by rw [e']; exact List.mem_cons_self)) (by decide)
      · cases e
        simp
    rw [hm, takeWhile_all h1, dropWhile_all h1, h3, if_neg (by rw [List.isEmpty_iff]; exact h2), if_neg (by omega)]
  unfold wholeInteger
  rw [hs]

/-! ## brackets -/

theorem findIdx_first {p : Char → Bool} {s rest : Text} {d : Char} (hs : ∀ c ∈ s, p c = false) (hd : p d = true) :
    (s ++ d :: rest).findIdx p = s.length := by
  induction s with
  | nil => simp [hd, List.findIdx_cons]
  | cons c s ih =>
    rw [List.cons_append, List.findIdx_cons, hs c List.mem_cons_self, ih fun x hx => hs x (List.mem_cons_of_mem _ hx)]
    rfl

theorem bracketed_indexed {name ix : Text} (hn : ∀ c ∈ name, c ≠ '[' ∧ c ≠ ']') (hi : ∀ c ∈ ix, c ≠ '[' ∧ c ≠ ']') :
    bracketed (name ++ '[' :: (ix ++ t! "]")) = some (trim name, trim ix) := by
  unfold bracketed
  have h1 : (name ++ '[' :: (ix ++ t! "]")).findIdx (· == '[') = name.length :=
    findIdx_first (fun c hc => by simpa using (hn c hc).1) (by rfl)
  have h2 : (name ++ '[' :: (ix ++ t! "]")).findIdx (· == ']') = name.length + 1 + ix.length := by
    have : (name ++ '[' :: (ix ++ t! "]")) = (name ++ '[' :: ix) ++ ']' :: [] := by simp
    rw [this, findIdx_first (p := (· == ']')) _ (by rfl)]
    · simp; omega
    · intro c hc
      rcases List.mem_append.1 hc with h | h
      · simpa using (hn c h).2
      · rcases List.mem_cons.1 h with rfl | h
        · rfl
        · simpa using (hi c h).2
  have h3 : (name ++ '[' :: (ix ++ t! "]")).length = name.length + 1 + ix.length + 1 := by simp; omega
  rw [h1, h2, h3]
  dsimp only
  rw [if_neg (by omega)]
  congr 2
  · rw [List.take_left']; rfl
  · have e : (name ++ '[' :: (ix ++ t! "]")) = (name ++ ['[']) ++ (ix ++ t! "]") := by simp
    rw [e, List.drop_left' (by simp), List.take_left' (by omega)]

/-! ## comma lists -/

/-- no parentheses and no comma -/
def Atom (s : Text) : Prop := ∀ c ∈ s, c ≠ '(' ∧ c ≠ ')' ∧ c ≠ ','

theorem commaLoop_atom {s : Text} (h : Atom s) (rest cur : Text) (parts : List Text) :
    commaLoop (s ++ rest) 0 cur parts = commaLoop rest 0 (cur ++ s) parts := by
  induction s generalizing cur with
  | nil => simp
  | cons c s ih =>
    obtain ⟨h1, h2, h3⟩ := h c List.mem_cons_self
    rw [List.cons_append, commaLoop, if_neg (by simpa using h1), if_neg (by simpa using h2), if_neg (by simp [h3]),
      ih fun x hx => h x (List.mem_cons_of_mem _ hx), List.append_assoc]
    rfl

/-- a list of trimmed texts without parentheses and commas is found again -/
theorem commaLoop_separated (l : List Text) (hl : ∀ s ∈ l, Atom s ∧ Trimmed s ∧ s ≠ []) (s : Text) (hs : Atom s ∧ Trimmed s ∧ s ≠ [])
    (cur : Text) (hcur : cur = [] ∨ cur = [' ']) (parts : List Text) :
    commaLoop (commaSeparated (s :: l)) 0 cur parts = .ok (parts ++ s :: l) := by
  have ht : trim (cur ++ s) = s := by
    rcases hcur with rfl | rfl
    · exact trim_of_trimmed hs.2.1
    · exact (trim_space (by decide) s).trans (trim_of_trimmed hs.2.1)
  induction l generalizing s cur parts with
  | nil =>
    have : commaSeparated [s] = s ++ [] := by simp [commaSeparated]
    rw [this, commaLoop_atom hs.1, commaLoop]
    rw [if_neg (by simp), if_neg (by rw [List.isEmpty_iff]; simp [hs.2.2]), ht]
  | cons t l ih =>
    have : commaSeparated (s :: t :: l) = s ++ ',' :: ' ' :: commaSeparated (t :: l) := by
      simp [commaSeparated, List.intercalate]
    have hc : commaLoop (' ' :: commaSeparated (t :: l)) 0 [] (parts ++ [s]) = commaLoop (commaSeparated (t :: l)) 0 [' '] (parts ++ [s]) :=
      commaLoop_atom (s := [' ']) (by intro c hc; rw [List.mem_singleton.1 hc]; decide) _ _ _
    rw [this, commaLoop_atom hs.1, commaLoop, if_neg (by decide), if_neg (by decide), if_pos (by decide), ht, hc]
    have h' := hl t List.mem_cons_self
    rw [ih (fun x hx => hl x (List.mem_cons_of_mem _ hx)) t h' [' '] (.inr rfl) (parts ++ [s])
      ((trim_space (by decide) t).trans (trim_of_trimmed h'.2.1)), List.append_assoc]
    rfl

theorem splitCommaList_separated {l : List Text} (hl : ∀ s ∈ l, Atom s ∧ Trimmed s ∧ s ≠ []) :
    splitCommaList (commaSeparated l) = .ok l := by
  cases l with
  | nil => rfl
  | cons s l =>
    unfold splitCommaList
    rw [commaLoop_separated l (fun x hx => hl x (List.mem_cons_of_mem _ hx)) s (hl s List.mem_cons_self) [] (.inl rfl) []]
    rw [ok_bind]
    have hne := (hl s List.mem_cons_self).2.2
    have : ([] ++ s :: l == [[]]) = false := by
      rw [beq_eq_false_iff_ne]
      intro e
      injection e with e1
      exact hne e1
    rw [this]
    rfl

/-- the characters of a comma list -/
theorem mem_commaSeparated {l : List Text} {c : Char} (h : c ∈ commaSeparated l) : c = ',' ∨ c = ' ' ∨ ∃ s ∈ l, c ∈ s := by
  induction l with
  | nil => simp [commaSeparated, List.intercalate] at h
  | cons s l ih =>
    cases l with
    | nil =>
      right; right
      exact ⟨s, List.mem_cons_self, by simpa [commaSeparated, List.intercalate] using h⟩
    | cons t l =>
      have e : commaSeparated (s :: t :: l) = s ++ ',' :: ' ' :: commaSeparated (t :: l) := by
        simp [commaSeparated, List.intercalate]
      rw [e] at h
      rcases List.mem_append.1 h with h | h
      · exact .inr (.inr ⟨s, List.mem_cons_self, h⟩)
      · rcases List.mem_cons.1 h with h | h
        · exact .inl h
        · rcases List.mem_cons.1 h with h | h
          · exact .inr (.inl h)
          · rcases ih h with h | h | ⟨u, hu, h⟩
            · exact .inl h
            · exact .inr (.inl h)
            · exact .inr (.inr ⟨u, List.mem_cons_of_mem _ hu, h⟩)

/-- a comma list of trimmed non-empty texts is trimmed -/
theorem commaSeparated_trimmed {l : List Text} (hl : ∀ s ∈ l, Trimmed s ∧ s ≠ []) (hne : l ≠ []) :
    Trimmed (commaSeparated l) ∧ commaSeparated l ≠ [] ∧ (commaSeparated l).head? = (l.head hne).head? := by
  induction l with
  | nil => exact absurd rfl hne
  | cons s l ih =>
    have hs := hl s List.mem_cons_self
    cases l with
    | nil =>
      have e : commaSeparated [s] = s := by simp [commaSeparated, List.intercalate]
      rw [e]
      exact ⟨hs.1, hs.2, rfl⟩
    | cons t l =>
      have e : commaSeparated (s :: t :: l) = s ++ ',' :: ' ' :: commaSeparated (t :: l) := by
        simp [commaSeparated, List.intercalate]
      obtain ⟨i1, i2, -⟩ := ih (fun x hx => hl x (List.mem_cons_of_mem _ hx)) (by simp)
      rw [e]
      have hh : (s ++ ',' :: ' ' :: commaSeparated (t :: l)).head? = s.head? := by
        cases s with
        | nil => exact absurd rfl hs.2
        | cons c s => rfl
      refine ⟨⟨?_, ?_⟩, by simp, hh⟩
      · rw [hh]; exact hs.1.1
      · rw [List.getLast?_append_of_ne_nil _ (by simp), List.getLast?_cons_of_ne_nil (by simp), List.getLast?_cons_of_ne_nil i2]
        exact i1.2

/-! ## parentheses -/

theorem closeIndex_atom {s : Text} (h : ∀ c ∈ s, c ≠ '(' ∧ c ≠ ')') (rest : Text) {d : Int} (hd : d ≠ 0) (i : Nat) :
    closeIndex (s ++ rest) d i = closeIndex rest d (i + s.length) := by
  induction s generalizing i with
  | nil => rfl
  | cons c s ih =>
    obtain ⟨h1, h2⟩ := h c List.mem_cons_self
    have e1 : (c == '(') = false := by simpa using h1
    have e2 : (c == ')') = false := by simpa using h2
    have e3 : (d == 0) = false := by simpa using hd
    rw [List.cons_append, closeIndex]
    simp only [e1, e2, e3, Bool.false_eq_true, if_false]
    rw [ih fun x hx => h x (List.mem_cons_of_mem _ hx)]
    congr 1
    simp; omega

theorem closeIndex_params {s : Text} (h : ∀ c ∈ s, c ≠ '(' ∧ c ≠ ')') (rest : Text) :
    closeIndex ('(' :: (s ++ ')' :: rest)) 0 0 = some (s.length + 1) := by
  rw [closeIndex]
  have : closeIndex (s ++ ')' :: rest) 1 1 = some (s.length + 1) := by
    rw [closeIndex_atom h _ (by decide), closeIndex]
    simp; omega
  simpa using this

end Verif.Proofs
