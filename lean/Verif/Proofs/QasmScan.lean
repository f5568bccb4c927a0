import Verif.Proofs.QasmAngle

/-! # OpenQASM: comments and statements -/

namespace Verif.Proofs
open Verif Verif.Spec Verif.Model

/-! ## comments -/

/-- `scan` without comments: statements, current statement, inside a string -/
def chop : Text → Bool → Text → List Text → List Text × Text × Bool
  | [], q, cur, st => (st, cur, q)
  | c :: cs, q, cur, st =>
    let q := if c == '"' then !q else q
    if !q && c == ';' then chop cs q [] (if (trim cur).isEmpty then st else st ++ [trim cur])
    else chop cs q (cur ++ [c]) st

theorem chop_char {c : Char} (h : c ≠ ';' ∧ c ≠ '"') (cs cur : Text) (st : List Text) : chop (c :: cs) false cur st = chop cs false (cur ++ [c]) st := by
  have h1 : (c == ';') = false := by simpa using h.1
  have h2 : (c == '"') = false := by simpa using h.2
  rw [chop]
  simp only [h1, h2, Bool.false_eq_true, if_false, Bool.and_false]

theorem chop_string {s : Text} (h : '"' ∉ s) (rest cur : Text) (st : List Text) :
    chop ('"' :: (s ++ '"' :: rest)) false cur st = chop rest false (cur ++ '"' :: (s ++ ['"'])) st := by
  have key : ∀ cur, chop (s ++ '"' :: rest) true cur st = chop rest false (cur ++ (s ++ ['"'])) st := by
    induction s with
    | nil => intro cur; rw [List.nil_append, chop]; simp
    | cons c s ih =>
      intro cur
      have h1 : (c == '"') = false := by simpa using fun e : c = '"' => h (e ▸ List.mem_cons_self)
      rw [List.cons_append, chop]
      simp only [h1, Bool.false_eq_true, if_false, Bool.not_true, Bool.false_and]
      rw [ih fun hh => h (List.mem_cons_of_mem _ hh)]
      simp
  rw [chop]
  simp only [beq_self_eq_true, if_true, Bool.not_false, Bool.not_true, Bool.false_and, Bool.false_eq_true, if_false]
  rw [key]
  simp

theorem scan_line {s : Text} (h : '\n' ∉ s) (raw cur : Text) (st : List Text) :
    scan (s ++ '\n' :: raw) ⟨st, cur, true, false, false⟩ = scan raw ⟨st, cur, false, false, false⟩ := by
  induction s with
  | nil => rw [List.nil_append, scan.eq_def]; simp
  | cons c s ih =>
    have h1 : (c != '\n') = true := by simpa using fun e : c = '\n' => h (e ▸ List.mem_cons_self)
    rw [List.cons_append, scan.eq_def]
    simp only [if_true, h1, Bool.and_true]
    exact ih fun hh => h (List.mem_cons_of_mem _ hh)

theorem scan_lastLine {s : Text} (h : '\n' ∉ s) (cur : Text) (st : List Text) :
    scan s ⟨st, cur, true, false, false⟩ = ⟨st, cur, true, false, false⟩ := by
  induction s with
  | nil => rw [scan]
  | cons c s ih =>
    have h1 : (c != '\n') = true := by simpa using fun e : c = '\n' => h (e ▸ List.mem_cons_self)
    rw [scan.eq_def]
    simp only [if_true, h1, Bool.and_true]
    exact ih fun hh => h (List.mem_cons_of_mem _ hh)

theorem scan_block {s : Text} (h : ¬ ['*', '/'] <:+: s) (raw cur : Text) (st : List Text) :
    scan (s ++ '*' :: '/' :: raw) ⟨st, cur, false, true, false⟩ = scan raw ⟨st, cur, false, false, false⟩ := by
  induction s with
  | nil => rw [List.nil_append, scan.eq_def]; simp
  | cons c s ih =>
    have step : scan (c :: (s ++ '*' :: '/' :: raw)) ⟨st, cur, false, true, false⟩ = scan (s ++ '*' :: '/' :: raw) ⟨st, cur, false, true, false⟩ := by
      cases s with
      | nil => rw [scan.eq_def]; simp
      | cons d s =>
        have hn : ¬ (c = '*' ∧ d = '/') := by
          rintro ⟨rfl, rfl⟩
          exact h ⟨[], s, rfl⟩
        rw [scan.eq_def]
        simp [hn]
    rw [List.cons_append, step]
    exact ih fun hh => h (hh.trans (List.suffix_cons c s).isInfix)

/-- scanning a text with comments -/
theorem scan_commented {raw clean : Text} (h : Commented raw clean) (cur : Text) (st : List Text) :
    ∃ b, scan raw ⟨st, cur, false, false, false⟩ = ⟨(chop clean false cur st).1, (chop clean false cur st).2.1, b, false, (chop clean false cur st).2.2⟩ := by
  induction h generalizing cur st with
  | nil => exact ⟨false, rfl⟩
  | char c raw clean h1 h2 _ ih =>
    by_cases hc : c = ';'
    · subst hc
      obtain ⟨b, hb⟩ := ih [] (if (trim cur).isEmpty then st else st ++ [trim cur])
      refine ⟨b, ?_⟩
      rw [scan_semicolon, hb, show chop (';' :: clean) false cur st = chop clean false [] (if (trim cur).isEmpty then st else st ++ [trim cur]) by
        rw [chop]; simp]
    · obtain ⟨b, hb⟩ := ih (cur ++ [c]) st
      refine ⟨b, ?_⟩
      rw [scan_plain_char ⟨hc, h1, h2⟩, hb, chop_char ⟨hc, h1⟩]
  | slash d raw clean h1 h2 _ ih =>
    obtain ⟨b, hb⟩ := ih (cur ++ ['/']) st
    refine ⟨b, ?_⟩
    rw [chop_char (by decide), ← hb, scan.eq_def]
    have e1 : (d == '/') = false := by simpa using h1
    have e2 : (d == '*') = false := by simpa using h2
    simp [e1, e2]
  | string s raw clean h _ ih =>
    obtain ⟨b, hb⟩ := ih (cur ++ '"' :: (s ++ ['"'])) st
    refine ⟨b, ?_⟩
    rw [chop_string h, scan_quote, Bool.not_false, scan_string (fun c hc e => h (e ▸ hc)), scan_quote, ← hb]
    simp
  | line s raw clean h _ ih =>
    obtain ⟨b, hb⟩ := ih cur st
    refine ⟨b, ?_⟩
    rw [← hb]
    refine Eq.trans ?_ (scan_line h raw cur st)
    rw [scan.eq_def]
    simp
  | lastLine s h =>
    refine ⟨true, ?_⟩
    rw [scan.eq_def]
    simp only [Bool.false_eq_true, if_false, Bool.not_false, Bool.true_and, beq_self_eq_true, Bool.and_self, if_true]
    exact scan_lastLine h cur st
  | block s raw clean h _ ih =>
    obtain ⟨b, hb⟩ := ih cur st
    refine ⟨b, ?_⟩
    rw [← hb]
    refine Eq.trans ?_ (scan_block h raw cur st)
    rw [scan.eq_def]
    simp

/-! ## trimming -/

theorem mem_takeWhile_pos {p : Char → Bool} {s : Text} {c : Char} (h : c ∈ s.takeWhile p) : p c = true := by
  induction s with
  | nil => cases h
  | cons d s ih =>
    rw [List.takeWhile_cons] at h
    split at h
    · rename_i hd
      rcases List.mem_cons.1 h with rfl | h
      · exact hd
      · exact ih h
    · cases h

/-- white space at the end removed -/
def rtrim (s : Text) : Text := (s.reverse.dropWhile isBlank).reverse

theorem trim_eq (s : Text) : trim s = rtrim (skipSpaces s) := rfl

theorem rtrim_solid {c : Char} (hc : isBlank c = false) (s t : Text) : rtrim (s ++ c :: t) = s ++ c :: rtrim t := by
  unfold rtrim
  have e : (s ++ c :: t).reverse = t.reverse ++ (c :: s.reverse) := by simp
  rw [e]
  have key : ∀ u : Text, (u ++ (c :: s.reverse)).dropWhile isBlank = u.dropWhile isBlank ++ (c :: s.reverse) := by
    intro u
    induction u with
    | nil => rw [List.nil_append, List.dropWhile_cons_of_neg (by simp [hc])]; rfl
    | cons d u ih =>
      by_cases hd : isBlank d = true
      · rw [List.cons_append, List.dropWhile_cons_of_pos hd, List.dropWhile_cons_of_pos hd, ih]
      · rw [List.cons_append, List.dropWhile_cons_of_neg hd, List.dropWhile_cons_of_neg hd]
        rfl
  rw [key]
  simp

theorem rtrim_gap {g : Text} (hg : Gap g) (s : Text) : rtrim (s ++ g) = rtrim s := by
  unfold rtrim
  rw [List.reverse_append]
  have : ∀ u v : Text, (∀ c ∈ u, isBlank c = true) → (u ++ v).dropWhile isBlank = v.dropWhile isBlank := by
    intro u v hu
    induction u with
    | nil => rfl
    | cons d u ih =>
      rw [List.cons_append, List.dropWhile_cons_of_pos (hu d List.mem_cons_self)]
      exact ih fun c hc => hu c (List.mem_cons_of_mem _ hc)
  rw [this _ _ fun c hc => gap_blank hg c (List.mem_reverse.1 hc)]

/-- a text and the white space at its end -/
theorem rtrim_split (s : Text) : ∃ g, Gap g ∧ s = rtrim s ++ g := by
  refine ⟨(s.reverse.takeWhile isBlank).reverse, fun c hc => isBlank_gap.1 ?_, ?_⟩
  · exact mem_takeWhile_pos (List.mem_reverse.1 hc)
  · unfold rtrim
    rw [← List.reverse_append, List.takeWhile_append_dropWhile, List.reverse_reverse]

theorem skip_split (s : Text) : ∃ g, Gap g ∧ s = g ++ skipSpaces s :=
  ⟨s.takeWhile isBlank, fun _ hc => isBlank_gap.1 (mem_takeWhile_pos hc), (List.takeWhile_append_dropWhile).symm⟩

theorem skip_nil {g : Text} (hg : Gap g) : skipSpaces g = [] := by
  have := skip_gap hg []
  rw [List.append_nil] at this
  exact this

theorem trim_gaps {g g' : Text} (hg : Gap g) (hg' : Gap g') (s : Text) : trim (g ++ (s ++ g')) = trim s := by
  rw [trim_eq, skip_gap hg, trim_eq]
  by_cases h : skipSpaces s = []
  · obtain ⟨x, hx, e⟩ := skip_split s
    rw [h, List.append_nil] at e
    rw [h, e, skip_gap hx, skip_nil hg']
  · rw [skip_append h, rtrim_gap hg']

theorem trim_trim (s : Text) : trim (trim s) = trim s := by
  obtain ⟨g, hg, e⟩ := skip_split s
  obtain ⟨g', hg', e'⟩ := rtrim_split (skipSpaces s)
  conv_rhs => rw [e, e', trim_gaps hg hg']
  rfl

theorem trim_rtrim (s : Text) : trim (rtrim s) = trim s := by
  obtain ⟨g, hg, e⟩ := rtrim_split s
  conv_rhs => rw [e]
  exact (trim_gaps (g := []) (fun c hc => by cases hc) hg _).symm

theorem trimmed_trim (s : Text) : Trimmed (trim s) := by
  constructor
  · intro c hc
    by_contra hb
    rw [Bool.not_eq_false] at hb
    have e := trim_trim s
    cases h : trim s with
    | nil => rw [h] at hc; cases hc
    | cons d t =>
      rw [h] at hc e
      cases hc
      rw [trim_space hb] at e
      have := congrArg List.length e
      have hl : (trim t).length ≤ t.length := by
        obtain ⟨x, _, e1⟩ := skip_split t
        obtain ⟨y, _, e2⟩ := rtrim_split (skipSpaces t)
        have a1 := congrArg List.length e1
        have a2 := congrArg List.length e2
        rw [List.length_append] at a1 a2
        rw [trim_eq]
        omega
      simp at this
      omega
  · intro c hc
    rw [trim_eq] at hc
    unfold rtrim at hc
    rw [List.getLast?_reverse] at hc
    have := List.head?_dropWhile_not isBlank (skipSpaces s).reverse
    rw [hc] at this
    simpa using this

theorem rtrim_head (s : Text) : ∀ c ∈ (rtrim s).head?, c ∈ s.head? := by
  intro c hc
  obtain ⟨g, -, e⟩ := rtrim_split s
  rw [e]
  cases h : rtrim s with
  | nil => rw [h] at hc; cases hc
  | cons d t => rw [h] at hc; exact hc

/-! ## statements of a program -/

/-- `chop` passes over the text -/
def Quiet (s : Text) : Prop := ∀ rest cur st, chop (s ++ rest) false cur st = chop rest false (cur ++ s) st

theorem Quiet.append {s t : Text} (hs : Quiet s) (ht : Quiet t) : Quiet (s ++ t) := by
  intro rest cur st
  rw [List.append_assoc, hs, ht, List.append_assoc]

theorem quiet_chars {s : Text} (h : ∀ c ∈ s, c ≠ ';' ∧ c ≠ '"') : Quiet s := by
  intro rest cur st
  induction s generalizing cur with
  | nil => simp
  | cons c s ih =>
    rw [List.cons_append, chop_char (h c List.mem_cons_self), ih fun x hx => h x (List.mem_cons_of_mem _ hx)]
    simp

theorem quiet_string {s : Text} (h : ∀ c ∈ s, c ≠ '"') : Quiet ('"' :: (s ++ ['"'])) := by
  intro rest cur st
  rw [show '"' :: (s ++ ['"']) ++ rest = '"' :: (s ++ '"' :: rest) by simp, chop_string fun hh => h _ hh rfl]

theorem gap_chars {g : Text} (hg : Gap g) : ∀ c ∈ g, c ≠ ';' ∧ c ≠ '"' := by
  intro c hc
  have key : ∀ c ∈ [' ', '\t', '\n', '\x0b', '\x0c', '\r'], c ≠ ';' ∧ c ≠ '"' := by decide
  exact key c (hg c hc)

theorem ident_chars {s : Text} (h : Ident s) : ∀ c ∈ s, isWord c = true := by
  intro c hc
  unfold isWord
  rcases h.2 c hc with h | h <;> simp [h]

theorem word_ne {c d : Char} (h : isWord c = true) (hd : isWord d = false) : c ≠ d := by
  rintro rfl
  rw [h] at hd
  cases hd

/-- lower-case letters come from letters -/
theorem word_of_lower {c : Char} (h : isWord c.toLower = true) : isWord c = true := by
  unfold Char.toLower at h
  split at h
  · rename_i hc
    unfold isWord Char.isAlphanum Char.isAlpha Char.isUpper
    simp
    exact .inl (.inl (.inl hc))
  · exact h

theorem sameWord_chars {kw w : Text} (h : SameWord kw w) (hk : ∀ c ∈ kw, isWord c = true) : ∀ c ∈ w, isWord c = true := by
  intro c hc
  refine word_of_lower (hk _ ?_)
  rw [← h]
  exact List.mem_map.2 ⟨c, hc, rfl⟩

theorem words_quiet {s : Text} (h : ∀ c ∈ s, isWord c = true) : ∀ c ∈ s, c ≠ ';' ∧ c ≠ '"' :=
  fun c hc => ⟨word_ne (h c hc) (by decide), word_ne (h c hc) (by decide)⟩

theorem digit_word {c : Char} (h : c.isDigit = true) : isWord c = true := by
  unfold isWord Char.isAlphanum
  simp [h]

/-- characters that may occur in a text: no semicolon, no quotation mark -/
def Clean (s : Text) : Prop := ∀ c ∈ s, c ≠ ';' ∧ c ≠ '"'

theorem Clean.append {s t : Text} (hs : Clean s) (ht : Clean t) : Clean (s ++ t) := by
  intro c hc
  rcases List.mem_append.1 hc with h | h
  · exact hs c h
  · exact ht c h

theorem Clean.cons {c : Char} {s : Text} (hc : c ≠ ';' ∧ c ≠ '"') (hs : Clean s) : Clean (c :: s) := by
  intro d hd
  rcases List.mem_cons.1 hd with rfl | h
  · exact hc
  · exact hs d h

theorem clean_nil : Clean [] := fun c hc => by cases hc

theorem numeral_chars {l : Numeral} (h : l.WellFormed) : ∀ c ∈ l.text, c.isDigit = true ∨ c ∈ ['.', 'e', 'E', '-', '+'] := by
  obtain ⟨h1, h2, -, -, h5⟩ := h
  intro c hc
  unfold Numeral.text at hc
  rcases List.mem_append.1 hc with hc | hc
  · rcases List.mem_append.1 hc with hc | hc
    · exact .inl (h1 c hc)
    · split at hc
      · rcases List.mem_cons.1 hc with rfl | hc
        · exact .inr (by decide)
        · exact .inl (h2 c hc)
      · cases hc
  · cases he : l.exp with
    | none => rw [he] at hc; cases hc
    | some x =>
      obtain ⟨u, s, ds⟩ := x
      rw [he] at hc
      rcases List.mem_cons.1 hc with rfl | hc
      · right; cases u <;> decide
      · rcases List.mem_append.1 hc with hc | hc
        · right
          rcases s with _ | _ | _
          · cases hc
          · rw [List.mem_singleton.1 hc]; decide
          · rw [List.mem_singleton.1 hc]; decide
        · exact .inl ((h5 u s ds he).2 c hc)

theorem numeral_clean {l : Numeral} (h : l.WellFormed) : Clean l.text := by
  intro c hc
  rcases numeral_chars h c hc with h | h
  · exact ⟨word_ne (digit_word h) (by decide), word_ne (digit_word h) (by decide)⟩
  · have key : ∀ c ∈ ['.', 'e', 'E', '-', '+'], c ≠ ';' ∧ c ≠ '"' := by decide
    exact key c h

theorem angle_clean {p : Level} {a : AngleExpr} {s : Text} (h : AngleText p a s) : Clean s := by
  induction h with
  | number l hl _ => exact numeral_clean hl
  | pi => unfold Clean; decide
  | parens a s _ ih => exact .cons (by decide) (ih.append (.cons (by decide) clean_nil))
  | signed _ _ _ ih => exact ih
  | product _ _ _ ih => exact ih
  | sum _ _ _ ih => exact ih
  | plus _ _ _ ih => exact .cons (by decide) ih
  | minus _ _ _ ih => exact .cons (by decide) ih
  | mul _ _ _ _ _ _ i j => exact i.append (.cons (by decide) j)
  | div _ _ _ _ _ _ i j => exact i.append (.cons (by decide) j)
  | add _ _ _ _ _ _ i j => exact i.append (.cons (by decide) j)
  | sub _ _ _ _ _ _ i j => exact i.append (.cons (by decide) j)
  | gaps _ _ _ _ _ hg hg' _ ih => exact Clean.append (gap_chars hg) (ih.append (gap_chars hg'))

theorem element_clean {x : Text × Nat} {s : Text} (h : ElementText x s) : Clean s := by
  obtain ⟨name, i, g, g', g'', ds, h1, h2, h3, h4, h5⟩ := h
  exact Clean.append (Clean.append (words_quiet (ident_chars h1)) (gap_chars h2)) (.cons (by decide)
    (Clean.append (Clean.append (gap_chars h3) (Clean.append (words_quiet fun c hc => digit_word (h5.2.1 c hc)) (gap_chars h4))) (.cons (by decide) clean_nil)))

theorem comma_clean {α : Type} {P : α → Text → Prop} (hP : ∀ a s, P a s → Clean s) {l : List α} {s : Text} (h : CommaText P l s) : Clean s := by
  induction h with
  | one a g s g' hg hg' h => exact Clean.append (gap_chars hg) ((hP a s h).append (gap_chars hg'))
  | cons a l g s g' t hg hg' h _ ih =>
    exact Clean.append (Clean.append (gap_chars hg) ((hP a s h).append (gap_chars hg'))) (.cons (by decide) ih)

theorem operand_clean {o : QOperand} {s : Text} (h : OperandText o s) : Clean s := by
  cases h with
  | element name i s h => exact element_clean h
  | whole name h => exact words_quiet (ident_chars h)

theorem angles_clean {l : List AngleExpr} {s : Text} (h : AnglesText l s) : Clean s := by
  cases h with
  | none g h => exact gap_chars h
  | some l s h => exact comma_clean (fun _ _ => angle_clean) h

/-- the word a statement starts with and what follows it -/
structure Parts (s w t : Text) : Prop where
  eq : s = w ++ t
  ne : w ≠ []
  word : ∀ c ∈ w, isWord c = true
  tail : ∀ c ∈ t.head?, isWord c = false

theorem gap_tail {g t : Text} (hg : Gap g) (hne : g ≠ []) : ∀ c ∈ (g ++ t).head?, isWord c = false := by
  intro c hc
  cases g with
  | nil => exact absurd rfl hne
  | cons d g =>
    cases hc
    have key : ∀ c ∈ [' ', '\t', '\n', '\x0b', '\x0c', '\r'], isWord c = false := by decide
    exact key c (hg c List.mem_cons_self)

theorem gap_tail' {g t : Text} (hg : Gap g) (ht : ∀ c ∈ t.head?, isWord c = false) : ∀ c ∈ (g ++ t).head?, isWord c = false := by
  by_cases h : g = []
  · subst h; exact ht
  · exact gap_tail hg h

theorem sameWord_ne {kw w : Text} (h : SameWord kw w) (hk : kw ≠ []) : w ≠ [] := by
  rintro rfl
  exact hk h.symm

theorem reserved_word {kw : Text} (h : kw ∈ reservedWords) : kw ≠ [] ∧ ∀ c ∈ kw, isWord c = true := by
  revert kw
  decide

theorem refused_word {kw : Text} (h : kw ∈ refusedWords) : kw ∈ reservedWords := by
  revert kw
  decide

theorem parts_kw {kw w t : Text} (hk : kw ∈ reservedWords) (h : SameWord kw w) (ht : ∀ c ∈ t.head?, isWord c = false) : Parts (w ++ t) w t :=
  ⟨rfl, sameWord_ne h (reserved_word hk).1, sameWord_chars h (reserved_word hk).2, ht⟩

theorem tail_word {s : Text} (h : Tail s) : ∀ c ∈ s.head?, isWord c = false := by
  intro c hc
  obtain ⟨h1, h2⟩ := h.2 c hc
  unfold isWord
  simp [h1, h2]

/-- every statement starts with a word and is passed over by `chop` -/
theorem stmt_quiet {q : QStmt} {s : Text} (h : StmtText q s) : Quiet s ∧ ∃ w t, Parts s w t := by
  have kw : ∀ {kw w : Text}, kw ∈ reservedWords → SameWord kw w → Clean w := fun hk h => words_quiet (sameWord_chars h (reserved_word hk).2)
  cases h with
  | version w g v hw hg hne hv hd =>
    refine ⟨quiet_chars (Clean.append (Clean.append (kw (by decide) hw) (gap_chars hg)) fun c hc => ?_), w, g ++ v, ?_⟩
    · rcases hd c hc with h | rfl
      · exact ⟨word_ne (digit_word h) (by decide), word_ne (digit_word h) (by decide)⟩
      · decide
    · rw [List.append_assoc]; exact parts_kw (kw := "openqasm".toList) (by decide) hw (gap_tail hg hne)
  | «include» w g file hw hg hf =>
    refine ⟨Quiet.append (quiet_chars (Clean.append (kw (by decide) hw) (gap_chars hg))) (quiet_string hf), w, g ++ '"' :: (file ++ ['"']), ?_⟩
    rw [List.append_assoc]
    exact parts_kw (kw := "include".toList) (by decide) hw (gap_tail' hg fun c hc => by cases hc; decide)
  | qreg w g name s size hw hg hne he =>
    refine ⟨quiet_chars (Clean.append (Clean.append (kw (by decide) hw) (gap_chars hg)) (element_clean he)), w, g ++ s, ?_⟩
    rw [List.append_assoc]
    exact parts_kw (kw := "qreg".toList) (by decide) hw (gap_tail hg hne)
  | creg w g name s size hw hg hne he =>
    refine ⟨quiet_chars (Clean.append (Clean.append (kw (by decide) hw) (gap_chars hg)) (element_clean he)), w, g ++ s, ?_⟩
    rw [List.append_assoc]
    exact parts_kw (kw := "creg".toList) (by decide) hw (gap_tail hg hne)
  | barrier w s hw ht =>
    exact ⟨quiet_chars (Clean.append (kw (by decide) hw) ht.1), w, s, parts_kw (kw := "barrier".toList) (by decide) hw (tail_word ht)⟩
  | refused k w s hk hw ht =>
    exact ⟨quiet_chars (Clean.append (kw (refused_word hk) hw) ht.1), w, s, parts_kw (refused_word hk) hw (tail_word ht)⟩
  | gate name g s ops hn hr hg hne hc =>
    refine ⟨quiet_chars (Clean.append (Clean.append (words_quiet (ident_chars hn)) (gap_chars hg)) (comma_clean (fun _ _ => element_clean) hc)), name, g ++ s,
      List.append_assoc .., hn.1, ident_chars hn, gap_tail hg hne⟩
  | angles name g s t as ops hn hr hg ha hc =>
    refine ⟨quiet_chars (Clean.append (Clean.append (words_quiet (ident_chars hn)) (gap_chars hg)) (.cons (by decide)
      ((angles_clean ha).append (.cons (by decide) (comma_clean (fun _ _ => element_clean) hc))))), name, g ++ '(' :: (s ++ ')' :: t),
      List.append_assoc .., hn.1, ident_chars hn, gap_tail' hg fun c hc => by cases hc; decide⟩
  | measure w g s g' g'' t q c hw hg hne hg' hg'' hq hc =>
    refine ⟨quiet_chars (Clean.append (Clean.append (kw (by decide) hw) (gap_chars hg)) (Clean.append ((operand_clean hq).append (gap_chars hg'))
      (.cons (by decide) (.cons (by decide) (Clean.append (gap_chars hg'') (operand_clean hc)))))), w, g ++ (s ++ g' ++ '-' :: '>' :: (g'' ++ t)), ?_⟩
    rw [List.append_assoc]
    exact parts_kw (kw := "measure".toList) (by decide) hw (gap_tail hg hne)

theorem word_blank {c : Char} (h : isWord c = true) : isBlank c = false := by
  by_contra hb
  rw [Bool.not_eq_false, isBlank_gap] at hb
  have key : ∀ c ∈ [' ', '\t', '\n', '\x0b', '\x0c', '\r'], isWord c = false := by decide
  rw [key c hb] at h
  cases h

theorem parts_trim {s w t : Text} (h : Parts s w t) : trim s = w ++ rtrim t ∧ trim s ≠ [] := by
  obtain ⟨rfl, hne, hw, ht⟩ := h
  rcases List.eq_nil_or_concat w with e | ⟨w', c, e⟩
  · exact absurd e hne
  have hsk : skipSpaces (w ++ t) = w ++ t := by
    cases hw' : w with
    | nil => exact absurd hw' hne
    | cons d u =>
      unfold skipSpaces
      rw [List.cons_append, List.dropWhile_cons_of_neg]
      rw [word_blank (hw d (by rw [hw']; exact List.mem_cons_self))]
      simp
  have hc : isBlank c = false := word_blank (hw c (by rw [e]; simp))
  have : trim (w ++ t) = w ++ rtrim t := by
    rw [trim_eq, hsk, e, List.concat_eq_append, List.append_assoc, List.singleton_append, rtrim_solid hc, List.append_assoc]
    rfl
  refine ⟨this, ?_⟩
  rw [this]
  simp [hne]

theorem chop_semicolon (rest cur : Text) (st : List Text) :
    chop (';' :: rest) false cur st = chop rest false [] (if (trim cur).isEmpty then st else st ++ [trim cur]) := by
  rw [chop]
  simp

/-- the statements found in a program without comments -/
theorem chop_program {l : List QStmt} {clean : Text} (h : ProgramText l clean) (st : List Text) : ∃ stmts cur,
    chop clean false [] st = (st ++ stmts, cur, false) ∧ trim cur = [] ∧ List.Forall₂ (fun q t => ∃ s, StmtText q s ∧ t = trim s) l stmts := by
  have hgap : ∀ g, Gap g → trim g = [] := fun g hg => by rw [trim_eq, skip_nil hg]; rfl
  induction h generalizing st with
  | nil g hg =>
    refine ⟨[], g, ?_, hgap g hg, .nil⟩
    have := quiet_chars (gap_chars hg) [] [] st
    rw [List.append_nil] at this
    rw [this, chop]
    simp
  | empty l g t hg _ ih =>
    rw [quiet_chars (gap_chars hg), chop_semicolon, List.nil_append, hgap g hg]
    exact ih st
  | cons q l g s g' t hg hg' hq _ ih =>
    obtain ⟨hquiet, w, tl, hparts⟩ := stmt_quiet hq
    obtain ⟨stmts, cur, e, hcur, hf⟩ := ih (st ++ [trim s])
    have hne : (trim s).isEmpty = false := by
      rw [List.isEmpty_eq_false_iff]
      exact (parts_trim hparts).2
    refine ⟨trim s :: stmts, cur, ?_, hcur, .cons ⟨s, hq, rfl⟩ hf⟩
    rw [((Quiet.append (quiet_chars (gap_chars hg)) (hquiet.append (quiet_chars (gap_chars hg')))) : Quiet (g ++ (s ++ g'))),
      chop_semicolon, List.nil_append, trim_gaps hg hg', hne]
    simp only [Bool.false_eq_true, if_false]
    rw [e]
    simp

/-- the statements of a program with comments -/
theorem split_program {l : List QStmt} {raw clean : Text} (hc : Commented raw clean) (h : ProgramText l clean) :
    ∃ stmts, splitStatements raw = .ok stmts ∧ List.Forall₂ (fun q t => ∃ s, StmtText q s ∧ t = trim s) l stmts := by
  obtain ⟨stmts, cur, e, hcur, hf⟩ := chop_program h []
  obtain ⟨b, hb⟩ := scan_commented hc [] []
  refine ⟨stmts, ?_, hf⟩
  unfold splitStatements
  rw [hb, e]
  simp [hcur]

end Verif.Proofs
