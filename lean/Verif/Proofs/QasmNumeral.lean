import Verif.Proofs.QasmLibc
import Verif.Spec.QasmText

/-! # The assumption about reading numbers can be met -/

namespace Verif.Proofs
open Verif Verif.Spec Verif.Model

/-- the text of an exponent with an optional sign -/
def numExpText : Option (Bool × Option Bool × Text) → Text
  | none => []
  | some (u, s, ds) => (if u then 'E' else 'e') :: ((match s with
    | none => []
    | some true => ['-']
    | some false => ['+']) ++ ds)

/-- sign and digits -/
def lexSigned : Text → Option Bool × Text
  | '-' :: r => (some true, r.takeWhile Char.isDigit)
  | '+' :: r => (some false, r.takeWhile Char.isDigit)
  | r => (none, r.takeWhile Char.isDigit)

/-- the exponent at the start of a text -/
def lexNumExp : Text → Option (Bool × Option Bool × Text)
  | 'e' :: r => some (false, lexSigned r)
  | 'E' :: r => some (true, lexSigned r)
  | _ => none

/-- reads a number at the start of a text -/
def lexNumeral (s : Text) : Numeral :=
  let (f, tail) := lexFrac (s.dropWhile Char.isDigit)
  ⟨s.takeWhile Char.isDigit, f.isSome, f.getD [], lexNumExp tail⟩

theorem lexSigned_text {s : Option Bool} {ds rest : Text} (hne : ds ≠ []) (hd : ds.all Char.isDigit = true) (hr : Stops rest) :
    lexSigned ((match s with
      | none => []
      | some true => ['-']
      | some false => ['+']) ++ ds ++ rest) = (s, ds) := by
  have e := (digits_split hd fun c hc => (hr c hc).1).1
  rcases s with _ | _ | _
  · cases ds with
    | nil => exact absurd rfl hne
    | cons d ds =>
      have hd' : d.isDigit = true := by
        rw [List.all_cons, Bool.and_eq_true] at hd
        exact hd.1
      rw [List.nil_append, List.cons_append] at *
      unfold lexSigned
      split
      · rename_i h
        cases h
        exact absurd hd' (by decide)
      · rename_i h
        cases h
        exact absurd hd' (by decide)
      · rw [e]
  · show (some false, (ds ++ rest).takeWhile Char.isDigit) = _
    rw [e]
  · show (some true, (ds ++ rest).takeWhile Char.isDigit) = _
    rw [e]

theorem lexNumExp_text {e : Option (Bool × Option Bool × Text)} (he : ∀ u s ds, e = some (u, s, ds) → ds ≠ [] ∧ ∀ c ∈ ds, c.isDigit = true) {rest : Text}
    (hr : Stops rest) : lexNumExp (numExpText e ++ rest) = e ∧ ∀ c ∈ (numExpText e ++ rest).head?, c.isDigit = false ∧ c ≠ '.' := by
  cases e with
  | none =>
    refine ⟨?_, fun c hc => ⟨(hr c hc).1, (hr c hc).2.1⟩⟩
    show lexNumExp rest = none
    unfold lexNumExp
    split
    · exact absurd rfl (hr 'e' (by simp)).2.2.1
    · exact absurd rfl (hr 'E' (by simp)).2.2.2.1
    · rfl
  | some p =>
    obtain ⟨u, s, ds⟩ := p
    obtain ⟨h1, h2⟩ := he u s ds rfl
    have hs := lexSigned_text (s := s) h1 (List.all_eq_true.2 h2) hr
    refine ⟨?_, fun c hc => ?_⟩
    · cases u
      · exact congrArg (fun x => some (false, x)) hs
      · exact congrArg (fun x => some (true, x)) hs
    · cases u
      · cases (show some 'e' = some c from hc)
        decide
      · cases (show some 'E' = some c from hc)
        decide

theorem lexNumeral_text {l : Numeral} (hl : l.WellFormed) {rest : Text} (hr : Stops rest) : lexNumeral (l.text ++ rest) = l := by
  obtain ⟨whole, point, frac, exp⟩ := l
  obtain ⟨h1, h2, h3, h4, h5⟩ := hl
  dsimp only at h1 h2 h3 h4 h5
  obtain ⟨e1, e2⟩ := lexNumExp_text h5 hr
  cases point with
  | false =>
    obtain rfl := h4 rfl
    have : (Numeral.mk whole false [] exp).text ++ rest = whole ++ (numExpText exp ++ rest) := by
      show (whole ++ []) ++ numExpText exp ++ rest = _
      simp
    rw [this]
    obtain ⟨a, b⟩ := digits_split (List.all_eq_true.2 h1) fun c hc => (e2 c hc).1
    have hf : lexFrac (numExpText exp ++ rest) = (none, numExpText exp ++ rest) := by
      unfold lexFrac
      split
      · rename_i h
        rw [h] at e2
        exact absurd rfl (e2 '.' (by simp)).2
      · rfl
    unfold lexNumeral
    rw [a, b, hf]
    dsimp only
    rw [e1]
    rfl
  | true =>
    have : (Numeral.mk whole true frac exp).text ++ rest = whole ++ ('.' :: (frac ++ (numExpText exp ++ rest))) := by
      show (whole ++ '.' :: frac) ++ numExpText exp ++ rest = _
      simp
    rw [this]
    obtain ⟨a, b⟩ := digits_split (x := '.' :: (frac ++ (numExpText exp ++ rest))) (List.all_eq_true.2 h1) fun c hc => by cases hc; decide
    obtain ⟨c, d⟩ := digits_split (List.all_eq_true.2 h2) fun c hc => (e2 c hc).1
    have hf : lexFrac ('.' :: (frac ++ (numExpText exp ++ rest))) = (some frac, numExpText exp ++ rest) := by
      show (some _, _) = _
      rw [c, d]
    unfold lexNumeral
    rw [a, b, hf]
    dsimp only
    rw [e1]
    rfl

/-- reading numbers to nearest is possible -/
theorem exists_strtod : ∃ (lib : Libc) (num : Numeral → ℝ), StrtodReads lib.strtod num := by
  refine ⟨⟨fun s => (Classical.choose (exists_nearest (lexNumeral s).value), (lexNumeral s).text.length), fun _ => []⟩,
    fun l => Classical.choose (exists_nearest l.value), fun l hl _ => ⟨Classical.choose_spec (exists_nearest l.value), fun rest hr => ?_⟩⟩
  dsimp only
  rw [lexNumeral_text hl hr]

end Verif.Proofs
