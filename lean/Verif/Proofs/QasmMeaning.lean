import Verif.Proofs.QasmTable
import Verif.Proofs.Circuit
import Verif.Proofs.QasmRead

/-! # OpenQASM: statements mean what they say -/

namespace Verif.Proofs
open Verif Verif.Spec Verif.Model

theorem gap_nil : Gap [] := fun c hc => by cases hc

/-! ## white space around angles -/

theorem angle_skip {p : Level} {a : AngleExpr} {s : Text} (h : AngleText p a s) : AngleText p a (skipSpaces s) := by
  have ne : ∀ {p : Level} {a : AngleExpr} {s : Text}, AngleText p a s → skipSpaces s ≠ [] := by
    intro p a s h
    obtain ⟨c, t, e, -⟩ := angle_first h
    rw [e]
    simp
  have here : ∀ {c : Char} (t : Text), isBlank c = false → skipSpaces (c :: t) = c :: t := by
    intro c t hc
    unfold skipSpaces
    rw [List.dropWhile_cons_of_neg (by simp [hc])]
  induction h with
  | number l hl hf =>
    obtain ⟨c, t, e, hc⟩ := numeral_head hl
    have := AngleText.number l hl hf
    rw [e] at this ⊢
    rw [here t (numeral_first hc).1]
    exact this
  | pi => exact .pi
  | parens a s h _ => rw [here _ (by decide)]; exact .parens a s h
  | signed a s _ ih => exact .signed _ _ ih
  | plus a s h _ => rw [here _ (by decide)]; exact .plus a s h
  | minus a s h _ => rw [here _ (by decide)]; exact .minus a s h
  | product a s _ ih => exact .product _ _ ih
  | mul a b s t hs ht ih _ => rw [skip_append (ne hs)]; exact .mul _ _ _ _ ih ht
  | div a b s t hs ht ih _ => rw [skip_append (ne hs)]; exact .div _ _ _ _ ih ht
  | sum a s _ ih => exact .sum _ _ ih
  | add a b s t hs ht ih _ => rw [skip_append (ne hs)]; exact .add _ _ _ _ ih ht
  | sub a b s t hs ht ih _ => rw [skip_append (ne hs)]; exact .sub _ _ _ _ ih ht
  | gaps p a g s g' hg hg' hs ih =>
    rw [skip_gap hg, skip_append (ne hs)]
    exact .gaps p a [] _ g' gap_nil hg' ih

theorem rtrim_append {s : Text} (h : rtrim s ≠ []) (g : Text) : rtrim (g ++ s) = g ++ rtrim s := by
  rcases List.eq_nil_or_concat (rtrim s) with e | ⟨u, c, e⟩
  · exact absurd e h
  obtain ⟨x, hx, es⟩ := rtrim_split s
  have hc : isBlank c = false := by
    have := List.head?_dropWhile_not isBlank s.reverse
    have e' : s.reverse.dropWhile isBlank = c :: u.reverse := by
      have := congrArg List.reverse e
      unfold rtrim at this
      rw [List.reverse_reverse, List.concat_eq_append, List.reverse_append] at this
      exact this
    rw [e'] at this
    simpa using this
  have h1 : rtrim (g ++ s) = rtrim (g ++ rtrim s) := by
    conv_lhs => rw [es, ← List.append_assoc, rtrim_gap hx]
  rw [h1, e, List.concat_eq_append, ← List.append_assoc, rtrim_solid hc]
  simp [rtrim]

theorem rtrim_ne {s : Text} {c : Char} (h : c ∈ s) (hc : isBlank c = false) : rtrim s ≠ [] := by
  intro e
  obtain ⟨g, hg, es⟩ := rtrim_split s
  rw [e, List.nil_append] at es
  rw [es] at h
  rw [gap_blank hg c h] at hc
  cases hc

theorem skip_mem {s : Text} {c : Char} {t : Text} (h : skipSpaces s = c :: t) : c ∈ s ∧ isBlank c = false := by
  obtain ⟨g, -, e⟩ := skip_split s
  refine ⟨by rw [e, h]; simp, ?_⟩
  have := List.head?_dropWhile_not isBlank s
  unfold skipSpaces at h
  rw [h] at this
  simpa using this

theorem angle_rtrim {p : Level} {a : AngleExpr} {s : Text} (h : AngleText p a s) : AngleText p a (rtrim s) := by
  induction h with
  | number l hl hf =>
    have := AngleText.number l hl hf
    rcases List.eq_nil_or_concat l.text with e | ⟨u, c, e⟩
    · obtain ⟨c, t, e', -⟩ := numeral_head hl
      rw [e'] at e
      cases e
    have hc : isBlank c = false := by
      rcases numeral_chars hl c (by rw [e]; simp) with h | h
      · exact word_blank (digit_word h)
      · have key : ∀ c ∈ ['.', 'e', 'E', '-', '+'], isBlank c = false := by decide
        exact key c h
    rw [e, List.concat_eq_append] at this ⊢
    rw [rtrim_solid hc]
    exact this
  | pi => exact .pi
  | parens a s h _ =>
    rw [show '(' :: (s ++ [')']) = ('(' :: s) ++ ')' :: [] from rfl, rtrim_solid (by decide)]
    exact .parens a s h
  | signed a s _ ih => exact .signed _ _ ih
  | plus a s _ ih =>
    rw [show '+' :: s = [] ++ '+' :: s from rfl, rtrim_solid (by decide)]
    exact .plus a _ ih
  | minus a s _ ih =>
    rw [show '-' :: s = [] ++ '-' :: s from rfl, rtrim_solid (by decide)]
    exact .minus a _ ih
  | product a s _ ih => exact .product _ _ ih
  | mul a b s t hs ht _ ih => rw [rtrim_solid (by decide)]; exact .mul _ _ _ _ hs ih
  | div a b s t hs ht _ ih => rw [rtrim_solid (by decide)]; exact .div _ _ _ _ hs ih
  | sum a s _ ih => exact .sum _ _ ih
  | add a b s t hs ht _ ih => rw [rtrim_solid (by decide)]; exact .add _ _ _ _ hs ih
  | sub a b s t hs ht _ ih => rw [rtrim_solid (by decide)]; exact .sub _ _ _ _ hs ih
  | gaps p a g s g' hg hg' hs ih =>
    obtain ⟨c, t, e, -⟩ := angle_first hs
    obtain ⟨h1, h2⟩ := skip_mem e
    rw [← List.append_assoc, rtrim_gap hg', rtrim_append (rtrim_ne h1 h2)]
    have := AngleText.gaps p a g _ [] hg gap_nil ih
    rw [List.append_nil] at this
    exact this

theorem angle_trim {p : Level} {a : AngleExpr} {s : Text} (h : AngleText p a s) : AngleText p a (trim s) := angle_rtrim (angle_skip h)

theorem angle_ne {p : Level} {a : AngleExpr} {s : Text} (h : AngleText p a s) : trim s ≠ [] := by
  obtain ⟨c, t, e, -⟩ := angle_first (angle_skip h)
  rw [skip_skip] at e
  rw [trim_eq, e]
  exact rtrim_ne List.mem_cons_self (skip_mem e).2

theorem parseAngle_agree {lib : Libc} {num : Numeral → ℝ} (hs : StrtodReads lib.strtod num) {a : AngleExpr} {s : Text} (h : AngleText .sum a s) :
    Agree (a.eval num) (parseAngle lib (trim s)) := by
  have := parseAngle_reads hs (angle_trim h)
  cases e : a.eval num <;> rw [e] at this <;> exact this

/-! ## lower case -/

theorem word_lower {c : Char} (h : isWord c = true) : isWord c.toLower = true := by
  by_cases hc : c.isUpper = true
  · have key : ∀ n : Fin 26, isWord (Char.ofNat (65 + n.val)).toLower = true := by decide
    unfold Char.isUpper at hc
    have h1 : 65 ≤ c.toNat ∧ c.toNat ≤ 90 := by
      rw [decide_eq_true_eq] at hc
      exact ⟨UInt32.le_iff_toNat_le.1 hc.1, UInt32.le_iff_toNat_le.1 hc.2⟩
    have := key ⟨c.toNat - 65, by omega⟩
    rw [show 65 + (c.toNat - 65) = c.toNat by omega, Char.ofNat_toNat] at this
    exact this
  · rw [show c.toLower = c from ?_]
    · exact h
    · unfold Char.toLower
      unfold Char.isUpper at hc
      rw [dif_neg]
      simpa using hc

theorem nonword_lower {c : Char} (h : isWord c = false) : isWord c.toLower = false := by
  by_contra hh
  rw [Bool.not_eq_false] at hh
  rw [word_of_lower hh] at h
  cases h

theorem gap_lower {g : Text} (h : Gap g) : lowerCase g = g := by
  unfold lowerCase
  conv_rhs => rw [← List.map_id g]
  refine List.map_congr_left fun c hc => ?_
  have key : ∀ c ∈ [' ', '\t', '\n', '\x0b', '\x0c', '\r'], c.toLower = c := by decide
  exact key c (h c hc)

theorem lowerCase_append (s t : Text) : lowerCase (s ++ t) = lowerCase s ++ lowerCase t := List.map_append

/-! ## the word a statement starts with -/

theorem starts_word {kw name t : Text} (hk : ∀ c ∈ kw, isWord c = true) (hn : ∀ c ∈ name, isWord c = true) (ht : ∀ c ∈ t.head?, isWord c = false) :
    startsWithWord (name ++ t) kw = decide (name = kw) := by
  cases t with
  | cons d t => exact startsWithWord_iff hk hn (ht d rfl)
  | nil =>
    rw [List.append_nil]
    unfold startsWithWord
    by_cases h : name = kw
    · subst h
      simp
    · rw [decide_eq_false h, Bool.and_eq_false_iff]
      by_cases hp : kw <+: name
      · obtain ⟨u, rfl⟩ := hp
        right
        rw [List.drop_left]
        cases u with
        | nil => simp at h
        | cons d u =>
          dsimp only
          rw [hn d (by simp)]
          rfl
      · left
        rw [Bool.eq_false_iff]
        intro hh
        exact hp (List.isPrefixOf_iff_prefix.1 hh)

/-- the text the reader looks at, and its first word -/
theorem handle_words {s w t : Text} (h : Parts s w t) : trim (trim s) = w ++ rtrim t ∧
    ∀ kw ∈ keywords, startsWithWord (lowerCase (w ++ rtrim t)) kw = decide (lowerCase w = kw) := by
  refine ⟨by rw [trim_trim, (parts_trim h).1], fun kw hk => ?_⟩
  rw [lowerCase_append]
  refine starts_word (keywords_word kw hk) ?_ ?_
  · intro c hc
    obtain ⟨d, hd, rfl⟩ := List.mem_map.1 hc
    exact word_lower (h.word d hd)
  · intro c hc
    unfold lowerCase at hc
    rw [List.head?_map] at hc
    obtain ⟨d, hd, rfl⟩ := Option.mem_map.1 hc
    exact nonword_lower (h.tail d (rtrim_head t d hd))

theorem keyword_drop {kw w : Text} (h : SameWord kw w) (t : Text) : (w ++ t).drop kw.length = t := by
  rw [← h, List.length_map, List.drop_left]

/-! ## invariant -/

/-- what has been read so far -/
structure Rel (p : QProgram) (r : Reader) : Prop where
  q : declsOf r.qregs = p.qregs
  qc : Consecutive r.qregs r.nQubits
  c : declsOf r.cregs = p.cregs
  cc : Consecutive r.cregs r.nClbits
  circ : buildCircuit (p.instrs.map fun i => ⟨i, none⟩) = .ok r.circuit
  warn : r.warnings = p.warnings
  head : r.sawVersion = p.header

/-- the code goes on as the specification says, and throws where that is undefined -/
def Sim (o : Option QProgram) (x : Res Reader) : Prop :=
  match o with
  | some p => ∃ r, x = .ok r ∧ Rel p r
  | none => ∃ m, x = .error (.throw m)

theorem lookup_decls {regs : Registers} (name : Text) : (regs.lookup name).isSome = true ↔ name ∈ (declsOf regs).map Prod.fst := by
  induction regs with
  | nil => simp [declsOf]
  | cons p regs ih =>
    obtain ⟨n, x⟩ := p
    rw [List.lookup_cons]
    simp only [declsOf, List.map_cons, List.mem_cons] at ih ⊢
    by_cases h : name = n
    · simp [h]
    · rw [show (name == n) = false by simpa using h]
      simp only [h, false_or]
      exact ih

theorem element_name {x : Text × Nat} {s : Text} (h : ElementText x s) : s.all (· != '[') = false ∧ trim (s.takeWhile (· != '[')) = x.1 := by
  obtain ⟨name, i, g, g', g'', ds, h1, h2, h3, h4, h5⟩ := h
  constructor
  · rw [List.all_eq_false]
    exact ⟨'[', by simp, by simp⟩
  · rw [takeWhile_word (p := (· != '[')) (name := name ++ g)]
    · exact trim_right (fun c hc => word_blank (ident_chars h1 c hc)) h2
    · intro c hc
      rcases List.mem_append.1 hc with hc | hc
      · simpa using word_ne (ident_chars h1 c hc) (d := '[') (by decide)
      · have key : ∀ c ∈ [' ', '\t', '\n', '\x0b', '\x0c', '\r'], c ≠ '[' := by decide
        simpa using key c (h2 c hc)
    · rfl

theorem register_read {kw w g s name : Text} {size : Nat} (hw : SameWord kw w) (hg : Gap g) (he : ElementText (name, size) s) (hs : size < 2 ^ 64) :
    parseRegisterName (w ++ rtrim (g ++ s)) kw = .ok name ∧
    parseRegisterDecl (w ++ rtrim (g ++ s)) kw = if size = 0 then .error (.throw "register size must be a positive integer") else .ok size := by
  have ht : trim ((w ++ rtrim (g ++ s)).drop kw.length) = s := by
    rw [keyword_drop hw, trim_rtrim]
    have := trim_gaps hg gap_nil s
    rw [List.append_nil] at this
    rw [this, element_trim he]
  constructor
  · unfold parseRegisterName
    rw [ht]
    dsimp only
    rw [(element_name he).1, (element_name he).2]
    rfl
  · obtain ⟨ds, hd, hb⟩ := element_bracketed he
    unfold parseRegisterDecl
    rw [ht, hb]
    dsimp only
    rw [wholeInteger_digits hd, if_neg (show ¬ size ≥ 2 ^ 64 by omega)]

end Verif.Proofs
