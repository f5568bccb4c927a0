import Verif.Proofs.Double
import Verif.Proofs.QasmText

/-! # OpenQASM: angles survive being printed and read -/

namespace Verif.Proofs
open Verif Verif.Spec Verif.Model
attribute [-simp] BitVec.getLsbD_eq_getElem

theorem isDouble_abs {x : ℝ} (h : IsDouble x) : IsDouble |x| := by
  obtain ⟨m, e, hm, h1, h2, rfl⟩ := h
  refine ⟨|m|, e, by rwa [abs_abs], h1, h2, ?_⟩
  rw [abs_mul, Int.cast_abs, abs_of_pos (by positivity : (0 : ℝ) < 2 ^ e)]

theorem isDouble_zero : IsDouble 0 := ⟨0, 0, by norm_num, by norm_num, by norm_num, by simp⟩

theorem isDouble_le {x : ℝ} (h : IsDouble x) : x ≤ 2 ^ 1024 - 2 ^ 971 := by
  obtain ⟨m, e, hm, h1, h2, rfl⟩ := h
  have hp : (2 : ℝ) ^ e ≤ 2 ^ (971 : ℤ) := zpow_le_zpow_right₀ (by norm_num) h2
  have hm' : (m : ℝ) ≤ 2 ^ 53 - 1 := by
    have : m ≤ 2 ^ 53 - 1 := by
      have := le_abs_self m
      omega
    exact_mod_cast this
  have hpos : (0 : ℝ) < 2 ^ e := by positivity
  calc (m : ℝ) * 2 ^ e ≤ (2 ^ 53 - 1) * 2 ^ e := by gcongr
    _ ≤ (2 ^ 53 - 1) * 2 ^ (971 : ℤ) := mul_le_mul_of_nonneg_left hp (by norm_num)
    _ = 2 ^ 1024 - 2 ^ 971 := by
      have : (2 : ℝ) ^ (971 : ℤ) = 2 ^ 971 := zpow_natCast (2 : ℝ) 971
      rw [this, sub_mul, ← pow_add, one_mul]

/-- printing a double does not leave the range of doubles -/
theorem rounded_range {x v : ℝ} (hx : IsDouble x) (hv : Rounded17 x v) : v < 2 ^ 1024 - 2 ^ 970 := by
  obtain ⟨k, hk, -, hd⟩ := hv
  have hb := isDouble_le hx
  have h16 : (10 : ℝ) ^ (k - 16) = (10 : ℝ) ^ k / 10 ^ 16 := by
    rw [zpow_sub₀ (by norm_num)]
    norm_num
  rw [h16] at hd
  have h1 : v ≤ x + x / 10 ^ 16 / 2 := by
    have := le_abs_self (v - x)
    have : (10 : ℝ) ^ k / 10 ^ 16 ≤ x / 10 ^ 16 := by gcongr
    linarith
  have e1 : (2 : ℝ) ^ 1024 = 2 ^ 54 * 2 ^ 970 := by rw [← pow_add]
  have e2 : (2 : ℝ) ^ 971 = 2 * 2 ^ 970 := by rw [pow_succ, mul_comm]
  have hp : (0 : ℝ) < 2 ^ 970 := by positivity
  rw [e1, e2] at hb
  rw [e1]
  have : x + x / 10 ^ 16 / 2 ≤ (2 ^ 54 * 2 ^ 970 - 2 * 2 ^ 970) + (2 ^ 54 * 2 ^ 970 - 2 * 2 ^ 970) / 10 ^ 16 / 2 := by gcongr
  have h3 : (2 ^ 54 * 2 ^ 970 - 2 * 2 ^ 970) + (2 ^ 54 * 2 ^ 970 - 2 * 2 ^ 970) / 10 ^ 16 / 2 < (2 : ℝ) ^ 54 * 2 ^ 970 - 2 ^ 970 := by
    generalize (2 : ℝ) ^ 970 = a at hp
    nlinarith
  exact lt_of_le_of_lt (h1.trans this) h3

/-! ## the text of a literal -/

theorem literal_chars {l : Literal} (h : l.WellFormed) : ∀ c ∈ l.text, c.isDigit = true ∨ c = '.' ∨ c = 'e' ∨ c = '-' ∨ c = '+' := by
  obtain ⟨-, h1, h2, h3⟩ := h
  intro c hc
  unfold Literal.text at hc
  rcases List.mem_append.1 hc with hc | hc
  · rcases List.mem_append.1 hc with hc | hc
    · exact .inl (List.all_eq_true.1 h1 c hc)
    · cases hf : l.frac with
      | none => rw [hf] at hc; cases hc
      | some f =>
        rw [hf] at hc
        rcases List.mem_cons.1 hc with rfl | hc
        · exact .inr (.inl rfl)
        · exact .inl (List.all_eq_true.1 (h2 f hf).2 c hc)
  · cases he : l.exp with
    | none => rw [he] at hc; cases hc
    | some p =>
      obtain ⟨s, ds⟩ := p
      rw [he] at hc
      rcases List.mem_cons.1 hc with rfl | hc
      · exact .inr (.inr (.inl rfl))
      · rcases List.mem_cons.1 hc with rfl | hc
        · cases s
          · exact .inr (.inr (.inr (.inr rfl)))
          · exact .inr (.inr (.inr (.inl rfl)))
        · exact .inl (List.all_eq_true.1 (h3 s ds he).2 c hc)

/-- a literal starts with a digit -/
theorem literal_head {l : Literal} (h : l.WellFormed) : ∃ c s, l.text = c :: s ∧ c.isDigit = true := by
  obtain ⟨h0, h1, -, -⟩ := h
  cases hw : l.whole with
  | nil => exact absurd hw h0
  | cons c s =>
    rw [hw] at h1
    refine ⟨c, s ++ (match l.frac with
      | none => []
      | some f => '.' :: f) ++ (match l.exp with
      | none => []
      | some (s, ds) => 'e' :: (if s then '-' else '+') :: ds), ?_, List.all_eq_true.1 h1 c List.mem_cons_self⟩
    unfold Literal.text
    rw [hw]
    rfl

/-- what the other parts of the reader need to know about a printed number -/
def NumberText (s : Text) : Prop := s ≠ [] ∧ ∀ c ∈ s, c.isDigit = true ∨ c = '.' ∨ c = 'e' ∨ c = '-' ∨ c = '+'

theorem numberText_char {c : Char} (h : c.isDigit = true ∨ c = '.' ∨ c = 'e' ∨ c = '-' ∨ c = '+') :
    isBlank c = false ∧ (c ≠ '(' ∧ c ≠ ')' ∧ c ≠ ',') ∧ c ≠ ';' ∧ c ≠ '"' ∧ c ≠ '/' := by
  rcases h with h | rfl | rfl | rfl | rfl
  · have hne : ∀ d : Char, d.isDigit = false → c ≠ d := by
      rintro d hd rfl
      rw [h] at hd; cases hd
    exact ⟨(isDigit_facts h).1, ⟨hne _ (by decide), hne _ (by decide), hne _ (by decide)⟩, hne _ (by decide), hne _ (by decide),
      hne _ (by decide)⟩
  all_goals decide

theorem NumberText.atom {s : Text} (h : NumberText s) : Atom s ∧ Trimmed s ∧ s ≠ [] :=
  ⟨fun c hc => (numberText_char (h.2 c hc)).2.1, Solid.trimmed fun c hc => (numberText_char (h.2 c hc)).1, h.1⟩

theorem NumberText.plain {s : Text} (h : NumberText s) : Plain s := fun c hc => (numberText_char (h.2 c hc)).2.2

/-! ## reading -/

theorem consume_head {c d : Char} {s : Text} (hs : isBlank d = false) (h : (d == c) = false) : consume c (d :: s) = none := by
  unfold consume skipSpaces
  rw [List.dropWhile_cons, hs]
  simp [h]

theorem consume_nil (c : Char) : consume c [] = none := rfl

/-- an unsigned literal at the end of the text -/
theorem parsePrimary_literal {lib : Libc} (hs : StrtodOK lib.strtod) {l : Literal} (hl : l.WellFormed) (hv : l.value < 2 ^ 1024 - 2 ^ 970)
    {rest : Text} (hr : Stops rest) (k : Nat) :
    parsePrimary lib (k + 1) (l.text ++ rest) = .ok ((lib.strtod (l.text ++ rest)).1, rest) := by
  obtain ⟨h1, -⟩ := hs l rest hl hr hv
  obtain ⟨c, s, e, hc⟩ := literal_head hl
  obtain ⟨f1, f2, f3, f4⟩ := isDigit_facts hc
  have hsk : skipSpaces (l.text ++ rest) = l.text ++ rest := by
    rw [e, List.cons_append]
    unfold skipSpaces
    rw [List.dropWhile_cons, f1]
    rfl
  have hco : consume '(' (l.text ++ rest) = none := by
    rw [e, List.cons_append]
    exact consume_head f1 (f4 _ (by decide))
  have hnum : parseNumber lib (l.text ++ rest) = .ok ((lib.strtod (l.text ++ rest)).1, rest) := by
    unfold parseNumber
    rw [if_neg (by rw [h1, e]; simp), h1, List.drop_left]
  rw [parsePrimary, hco]
  dsimp only
  rw [hsk]
  rw [e, List.cons_append] at hnum ⊢
  dsimp only
  rw [if_neg (by rw [f3, f4 '_' (by decide)]; simp)]
  exact hnum

theorem consume_digit {l : Literal} (hl : l.WellFormed) (rest : Text) {c : Char} (hc : c.isDigit = false) : consume c (l.text ++ rest) = none := by
  obtain ⟨d, s, e, hd⟩ := literal_head hl
  obtain ⟨f1, f2, f3, f4⟩ := isDigit_facts hd
  rw [e, List.cons_append]
  exact consume_head f1 (f4 _ hc)

/-- an unsigned literal or a literal with a minus sign -/
theorem parseAngle_literal {lib : Libc} (hs : StrtodOK lib.strtod) {l : Literal} (hl : l.WellFormed) (hv : l.value < 2 ^ 1024 - 2 ^ 970) :
    ∃ r, NearestDouble l.value r ∧ parseAngle lib l.text = .ok r ∧ parseAngle lib ('-' :: l.text) = .ok (-r) := by
  have hst : Stops [] := by intro c hc; cases hc
  have hun : ∀ k, parseUnary lib (k + 2) l.text = .ok ((lib.strtod (l.text ++ [])).1, []) := by
    intro k
    have e := parsePrimary_literal hs hl hv hst k
    have c1 := consume_digit hl [] (c := '+') (by decide)
    have c2 := consume_digit hl [] (c := '-') (by decide)
    rw [List.append_nil] at *
    rw [parseUnary, c1]
    dsimp only
    rw [c2]
    exact e
  obtain ⟨-, h2⟩ := hs l [] hl hst hv
  refine ⟨_, h2, ?_, ?_⟩
  · unfold parseAngle
    obtain ⟨k, hk⟩ : ∃ k, 6 * l.text.length + 6 = k + 4 := ⟨6 * l.text.length + 2, by omega⟩
    have e := hun k
    rw [hk, parseAddSub, parseMulDiv, e, ok_bind]
    dsimp only
    rw [mulDivLoop, consume_nil, consume_nil, ok_bind]
    dsimp only
    rw [show skipSpaces [] = [] from rfl, addSubLoop, consume_nil, consume_nil, ok_bind]
    rfl
  · unfold parseAngle
    obtain ⟨k, hk⟩ : ∃ k, 6 * ('-' :: l.text).length + 6 = k + 5 := ⟨6 * ('-' :: l.text).length + 1, by omega⟩
    have e := hun k
    have hu : parseUnary lib (k + 3) ('-' :: l.text) = .ok (-(lib.strtod (l.text ++ [])).1, []) := by
      rw [parseUnary, consume_head (by decide) (by decide)]
      dsimp only
      have : consume '-' ('-' :: l.text) = some l.text := rfl
      rw [this]
      dsimp only
      rw [e, ok_bind]
      rfl
    rw [hk, parseAddSub, parseMulDiv, hu, ok_bind]
    dsimp only
    rw [mulDivLoop, consume_nil, consume_nil, ok_bind]
    dsimp only
    rw [show skipSpaces [] = [] from rfl, addSubLoop, consume_nil, consume_nil, ok_bind]
    rfl

/-- **a printed angle is read back exactly** -/
theorem parseAngle_format {lib : Libc} (hs : StrtodOK lib.strtod) (hf : FormatOK lib.format) {x : ℝ} (hx : IsDouble x) :
    NumberText (lib.format x) ∧ parseAngle lib (lib.format x) = .ok x := by
  have text : ∀ (l : Literal) (b : Bool), l.WellFormed → NumberText ((if b then ['-'] else []) ++ l.text) := by
    intro l b hl
    refine ⟨?_, ?_⟩
    · obtain ⟨c, s, e, -⟩ := literal_head hl
      rw [e]; simp
    · intro c hc
      rcases List.mem_append.1 hc with hc | hc
      · cases b
        · cases hc
        · rw [List.mem_singleton.1 hc]; decide
      · exact literal_chars hl c hc
  by_cases h0 : x = 0
  · subst h0
    obtain ⟨l, hl, hv, ht⟩ := hf.2
    obtain ⟨r, hr, h1, h2⟩ := parseAngle_literal hs hl (by rw [hv, sub_pos]; exact pow_lt_pow_right₀ (by norm_num) (by norm_num))
    have hr0 : r = 0 := by
      have := hr.2 0 isDouble_zero
      rw [hv] at this
      simpa using this
    subst hr0
    rcases ht with ht | ht
    · rw [ht, h1]
      exact ⟨text l false hl, rfl⟩
    · rw [ht, h2, neg_zero]
      exact ⟨text l true hl, rfl⟩
  · obtain ⟨l, hl, hv, ht⟩ := hf.1 x hx h0
    obtain ⟨r, hr, h1, h2⟩ := parseAngle_literal hs hl (rounded_range (isDouble_abs hx) hv)
    have hrx := double_of_rounded (isDouble_abs hx) hv hr
    subst hrx
    rw [ht]
    by_cases hn : x < 0
    · rw [if_pos hn]
      refine ⟨text l true hl, ?_⟩
      rw [List.singleton_append, h2, abs_of_neg hn, neg_neg]
    · rw [if_neg hn, List.nil_append, h1, abs_of_nonneg (not_lt.1 hn)]
      exact ⟨text l false hl, rfl⟩

end Verif.Proofs
