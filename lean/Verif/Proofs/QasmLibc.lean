import Verif.Proofs.QasmRound
import Mathlib.Algebra.Order.Archimedean.Basic
import Mathlib.Data.Set.Finite.Lattice
import Mathlib.Order.Interval.Finset.Basic
import Mathlib.Algebra.Order.Round
import Mathlib.Tactic.Ring

/-! # The assumptions about the C library can be met -/

namespace Verif.Proofs
open Verif Verif.Spec Verif.Model

/-! ## a nearest double exists -/

theorem doubles_finite : {x | IsDouble x}.Finite := by
  have h : {x | IsDouble x} ⊆ (fun p : ℤ × ℤ => (p.1 : ℝ) * (2 : ℝ) ^ p.2) '' (Set.Icc (-2 ^ 53) (2 ^ 53) ×ˢ Set.Icc (-1074) 971) := by
    rintro x ⟨m, e, hm, h1, h2, rfl⟩
    rw [abs_lt] at hm
    exact ⟨(m, e), ⟨⟨hm.1.le, hm.2.le⟩, h1, h2⟩, rfl⟩
  exact (((Set.finite_Icc _ _).prod (Set.finite_Icc _ _)).image _).subset h

theorem exists_nearest (v : ℝ) : ∃ r, NearestDouble v r := by
  obtain ⟨r, hr, hmin⟩ := Set.exists_min_image {x | IsDouble x} (fun y => |v - y|) doubles_finite ⟨0, isDouble_zero⟩
  exact ⟨r, hr, hmin⟩

/-! ## literals can be recognised -/

/-- the fraction at the start of a text, and the rest -/
def lexFrac : Text → Option Text × Text
  | '.' :: r => (some (r.takeWhile Char.isDigit), r.dropWhile Char.isDigit)
  | r => (none, r)

/-- the exponent at the start of a text -/
def lexExp : Text → Option (Bool × Text)
  | 'e' :: c :: r => some (c == '-', r.takeWhile Char.isDigit)
  | _ => none

/-- reads a literal at the start of a text -/
def lexLiteral (s : Text) : Literal :=
  ⟨s.takeWhile Char.isDigit, (lexFrac (s.dropWhile Char.isDigit)).1, lexExp (lexFrac (s.dropWhile Char.isDigit)).2⟩

theorem digits_split {ds x : Text} (h : ds.all Char.isDigit = true) (hx : ∀ c ∈ x.head?, c.isDigit = false) :
    (ds ++ x).takeWhile Char.isDigit = ds ∧ (ds ++ x).dropWhile Char.isDigit = x := by
  induction ds with
  | nil =>
    cases x with
    | nil => simp
    | cons c x => simp [hx c (by simp)]
  | cons d ds ih =>
    simp only [List.all_cons, Bool.and_eq_true] at h
    simp [h.1, ih h.2]

/-- the text of an exponent -/
def expText : Option (Bool × Text) → Text
  | none => []
  | some (s, ds) => 'e' :: (if s then '-' else '+') :: ds

theorem lexExp_text {e : Option (Bool × Text)} (he : ∀ s ds, e = some (s, ds) → ds ≠ [] ∧ ds.all Char.isDigit = true) {rest : Text}
    (hr : Stops rest) : lexExp (expText e ++ rest) = e ∧ ∀ c ∈ (expText e ++ rest).head?, c.isDigit = false ∧ c ≠ '.' := by
  cases e with
  | none =>
    refine ⟨?_, fun c hc => ⟨(hr c hc).1, (hr c hc).2.1⟩⟩
    show lexExp rest = none
    unfold lexExp
    split
    · rename_i c r
      exact absurd rfl (hr 'e' (by simp)).2.2.1
    · rfl
  | some p =>
    obtain ⟨sg, ds⟩ := p
    refine ⟨?_, fun c hc => ?_⟩
    · show some (_, (ds ++ rest).takeWhile Char.isDigit) = _
      rw [(digits_split (he sg ds rfl).2 fun c hc => (hr c hc).1).1]
      cases sg <;> rfl
    · cases (show some 'e' = some c from hc)
      decide

theorem lexLiteral_text {l : Literal} (hl : l.WellFormed) {rest : Text} (hr : Stops rest) : lexLiteral (l.text ++ rest) = l := by
  obtain ⟨whole, frac, exp⟩ := l
  obtain ⟨h0, h1, h2, h3⟩ := hl
  dsimp only at h0 h1 h2 h3
  obtain ⟨e1, e2⟩ := lexExp_text h3 hr
  have key : ∀ (x : Text) (f : Option Text) (tail : Text), (∀ c ∈ x.head?, c.isDigit = false) → lexFrac x = (f, tail) → lexExp tail = exp →
      lexLiteral (whole ++ x) = ⟨whole, f, exp⟩ := by
    intro x f tail hx hf he
    obtain ⟨a, b⟩ := digits_split h1 hx
    unfold lexLiteral
    rw [a, b, hf]
    dsimp only
    rw [he]
  cases frac with
  | none =>
    have : (Literal.mk whole none exp).text ++ rest = whole ++ (expText exp ++ rest) := by
      show (whole ++ []) ++ expText exp ++ rest = _
      simp
    rw [this]
    refine key _ none (expText exp ++ rest) (fun c hc => (e2 c hc).1) ?_ e1
    unfold lexFrac
    split
    · rename_i h
      rw [h] at e2
      exact absurd rfl (e2 '.' (by simp)).2
    · rfl
  | some f =>
    have : (Literal.mk whole (some f) exp).text ++ rest = whole ++ ('.' :: (f ++ (expText exp ++ rest))) := by
      show (whole ++ '.' :: f) ++ expText exp ++ rest = _
      simp
    rw [this]
    obtain ⟨c, d⟩ := digits_split (h2 f rfl).2 fun c hc => (e2 c hc).1
    refine key _ (some f) (expText exp ++ rest) (fun c hc => ?_) ?_ e1
    · cases (show some '.' = some c from hc)
      decide
    · show (some _, _) = _
      rw [c, d]

/-! ## printing with 17 digits -/

theorem natOfDigits_digitsValue (s : Text) : natOfDigits s = digitsValue s := by
  unfold natOfDigits digitsValue
  congr 1
  funext n c
  rw [Nat.mul_comm]
  rfl

theorem exists_literal {x : ℝ} (hx : 0 < x) : ∃ l : Literal, l.WellFormed ∧ Rounded17 x l.value := by
  obtain ⟨k, hk1, hk2⟩ := exists_mem_Ico_zpow hx (show (1 : ℝ) < 10 by norm_num)
  have hp : ∀ j : ℤ, (0 : ℝ) < 10 ^ j := fun j => by positivity
  set N : ℤ := round (x * (10 : ℝ) ^ (16 - k)) with hN
  have hN0 : 0 ≤ N := by
    rw [hN, round_eq]
    exact Int.floor_nonneg.2 (by have := hp (16 - k); positivity)
  obtain ⟨d1, d2, d3⟩ := decimal_spec N.toNat
  obtain ⟨f1, f2, f3⟩ := decimal_spec (k - 16).natAbs
  refine ⟨⟨decimal N.toNat, none, some (decide (k - 16 < 0), decimal (k - 16).natAbs)⟩, ⟨d2, ?_, by simp, ?_⟩, k, hk1, hk2, ?_⟩
  · simpa [List.all_eq_true] using d1
  · rintro s ds h
    cases h
    exact ⟨f2, by simpa [List.all_eq_true] using f1⟩
  · have hv : (Literal.mk (decimal N.toNat) none (some (decide (k - 16 < 0), decimal (k - 16).natAbs))).value = (N : ℝ) * (10 : ℝ) ^ (k - 16) := by
      unfold Literal.value
      dsimp only
      rw [Option.getD_none, List.append_nil, natOfDigits_digitsValue, natOfDigits_digitsValue, d3, f3]
      congr 1
      · rw [← Int.cast_natCast, Int.toNat_of_nonneg hN0]
      · congr 1
        by_cases h : k - 16 < 0
        · simp only [h, decide_true, if_true, List.length_nil]
          omega
        · simp only [h, decide_false, List.length_nil]
          simp
          omega
    rw [hv]
    have hx' : x = x * (10 : ℝ) ^ (16 - k) * (10 : ℝ) ^ (k - 16) := by
      rw [mul_assoc, ← zpow_add₀ (by norm_num)]
      simp
    have hd := abs_sub_round (x * (10 : ℝ) ^ (16 - k))
    rw [← hN] at hd
    calc |(N : ℝ) * (10 : ℝ) ^ (k - 16) - x| = |(x * (10 : ℝ) ^ (16 - k) - N) * (10 : ℝ) ^ (k - 16)| := by
          conv_lhs => rw [hx']
          rw [← sub_mul, abs_mul, abs_mul, abs_sub_comm]
      _ = |x * (10 : ℝ) ^ (16 - k) - N| * (10 : ℝ) ^ (k - 16) := by rw [abs_mul, abs_of_pos (hp (k - 16))]
      _ ≤ 1 / 2 * (10 : ℝ) ^ (k - 16) := mul_le_mul_of_nonneg_right hd (hp _).le
      _ = _ := by ring

theorem exists_libc : ∃ lib : Libc, StrtodOK lib.strtod ∧ FormatOK lib.format := by
  classical
  refine ⟨⟨fun s => (Classical.choose (exists_nearest (lexLiteral s).value), (lexLiteral s).text.length), fun x =>
    if h : 0 < |x| then (if x < 0 then ['-'] else []) ++ (Classical.choose (exists_literal h)).text else ['0']⟩, ?_, ?_⟩
  · intro l rest hl hr _
    dsimp only
    rw [lexLiteral_text hl hr]
    exact ⟨rfl, Classical.choose_spec (exists_nearest l.value)⟩
  · refine ⟨?_, ?_⟩
    · intro x _ hx
      have h : 0 < |x| := abs_pos.2 hx
      refine ⟨Classical.choose (exists_literal h), (Classical.choose_spec (exists_literal h)).1, (Classical.choose_spec (exists_literal h)).2, ?_⟩
      dsimp only
      rw [dif_pos h]
    · refine ⟨⟨['0'], none, none⟩, ⟨by simp, by decide, by simp, by simp⟩, ?_, .inl ?_⟩
      · simp [Literal.value, natOfDigits]
      · simp [Literal.text]

end Verif.Proofs
