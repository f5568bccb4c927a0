import Verif.Proofs.QasmFuel
import Verif.Spec.QasmText

/-! # OpenQASM: the value of an angle expression -/

namespace Verif.Proofs
open Verif Verif.Spec Verif.Model

/-! ## more fuel does not change a result -/

/-- `y` is `x`, unless `x` ran out of fuel -/
def Refines {α : Type} (x y : Res α) : Prop := x = .error outOfFuel ∨ x = y

theorem Refines.rfl {α : Type} {x : Res α} : Refines x x := .inr (Eq.refl x)

theorem Refines.bind {α β : Type} {x y : Res α} (h : Refines x y) {f g : α → Res β} (hf : ∀ a, Refines (f a) (g a)) :
    Refines (x >>= f) (y >>= g) := by
  rcases h with rfl | rfl
  · exact .inl (Eq.refl _)
  · cases x with
    | error e => exact .rfl
    | ok a => exact hf a

theorem angle_refines (lib : Libc) (k : Nat) : (∀ s, Refines (parseAddSub lib k s) (parseAddSub lib (k + 1) s)) ∧
    (∀ v s, Refines (addSubLoop lib k v s) (addSubLoop lib (k + 1) v s)) ∧
    (∀ s, Refines (parseMulDiv lib k s) (parseMulDiv lib (k + 1) s)) ∧
    (∀ v s, Refines (mulDivLoop lib k v s) (mulDivLoop lib (k + 1) v s)) ∧
    (∀ s, Refines (parseUnary lib k s) (parseUnary lib (k + 1) s)) ∧
    (∀ s, Refines (parsePrimary lib k s) (parsePrimary lib (k + 1) s)) := by
  induction k with
  | zero =>
    refine ⟨fun s => .inl ?_, fun v s => .inl ?_, fun s => .inl ?_, fun v s => .inl ?_, fun s => .inl ?_, fun s => .inl ?_⟩
    · rw [parseAddSub]
    · rw [addSubLoop]
    · rw [parseMulDiv]
    · rw [mulDivLoop]
    · rw [parseUnary]
    · rw [parsePrimary]
  | succ k ih =>
    obtain ⟨i1, i2, i3, i4, i5, i6⟩ := ih
    refine ⟨fun s => ?_, fun v s => ?_, fun s => ?_, fun v s => ?_, fun s => ?_, fun s => ?_⟩
    · rw [parseAddSub, parseAddSub]
      exact (i3 s).bind fun p => i2 p.1 p.2
    · rw [addSubLoop, addSubLoop]
      cases consume '+' s with
      | some s' => exact (i3 s').bind fun p => i2 _ p.2
      | none =>
        cases consume '-' s with
        | some s' => exact (i3 s').bind fun p => i2 _ p.2
        | none => exact .rfl
    · rw [parseMulDiv, parseMulDiv]
      exact (i5 s).bind fun p => i4 p.1 p.2
    · rw [mulDivLoop, mulDivLoop]
      cases consume '*' s with
      | some s' => exact (i5 s').bind fun p => i4 _ p.2
      | none =>
        cases consume '/' s with
        | some s' =>
          refine (i5 s').bind fun p => ?_
          dsimp only
          split
          · exact .rfl
          · exact i4 _ p.2
        | none => exact .rfl
    · rw [parseUnary, parseUnary]
      cases consume '+' s with
      | some s' => exact i5 s'
      | none =>
        cases consume '-' s with
        | some s' => exact (i5 s').bind fun p => .rfl
        | none => exact i6 s
    · rw [parsePrimary, parsePrimary]
      cases consume '(' s with
      | some s' =>
        refine (i1 s').bind fun p => ?_
        dsimp only
        exact .rfl
      | none => exact .rfl

/-- `f k` is `x` for all large `k` -/
def Ev {α : Type} (f : Nat → Res α) (x : Res α) : Prop := ∃ K, ∀ k, K ≤ k → f k = x

theorem ev_addSub {lib : Libc} {s : Text} {x : Res (ℝ × Text)} (h : Ev (fun k => parseAddSub lib k s) x) :
    parseAddSub lib (6 * s.length + 6) s = x := by
  obtain ⟨K, hK⟩ := h
  have hmono : ∀ j, parseAddSub lib (6 * s.length + 6 + j) s = parseAddSub lib (6 * s.length + 6) s := by
    intro j
    induction j with
    | zero => rfl
    | succ j ih =>
      rcases (angle_refines lib (6 * s.length + 6 + j)).1 s with h | h
      · rw [ih] at h
        rcases (angle_shrinks lib (6 * s.length + 6) s).1 (by omega) with ⟨v, s', h', -⟩ | ⟨m, h'⟩ <;>
          (rw [h'] at h; exact absurd h (by simp [outOfFuel]))
      · rw [← ih, h]
        rfl
  rw [← hmono K]
  exact hK _ (by omega)

theorem Ev.succ {α : Type} {f g : Nat → Res α} {x : Res α} (h : Ev g x) (e : ∀ k, f (k + 1) = g k) : Ev f x := by
  obtain ⟨K, hK⟩ := h
  refine ⟨K + 1, fun k hk => ?_⟩
  obtain ⟨j, rfl⟩ : ∃ j, k = j + 1 := ⟨k - 1, by omega⟩
  rw [e, hK j (by omega)]

theorem Ev.bind {α β : Type} {f : Nat → Res α} {a : α} {h : Nat → α → Res β} {x : Res β} (hf : Ev f (.ok a)) (hh : Ev (fun k => h k a) x) :
    Ev (fun k => f k >>= h k) x := by
  obtain ⟨K, hK⟩ := hf
  obtain ⟨L, hL⟩ := hh
  refine ⟨max K L, fun k hk => ?_⟩
  dsimp only
  rw [hK k (by omega), ok_bind]
  exact hL k (by omega)

theorem Ev.bind_error {α β : Type} {f : Nat → Res α} {e : Fault} {h : Nat → α → Res β} (hf : Ev f (.error e)) :
    Ev (fun k => f k >>= h k) (.error e) := by
  obtain ⟨K, hK⟩ := hf
  exact ⟨K, fun k hk => by dsimp only; rw [hK k hk]; rfl⟩

theorem Ev.congr {α : Type} {f g : Nat → Res α} {x : Res α} (h : Ev g x) (e : ∀ k, f k = g k) : Ev f x := by
  obtain ⟨K, hK⟩ := h
  exact ⟨K, fun k hk => by rw [e, hK k hk]⟩

theorem Ev.const {α : Type} (x : Res α) : Ev (fun _ => x) x := ⟨0, fun _ _ => rfl⟩

/-! ## white space -/

theorem isBlank_gap {c : Char} : isBlank c = true ↔ c ∈ [' ', '\t', '\n', '\x0b', '\x0c', '\r'] := by
  unfold isBlank
  simp [or_assoc]

theorem gap_blank {g : Text} (h : Gap g) : ∀ c ∈ g, isBlank c = true := fun c hc => isBlank_gap.2 (h c hc)

theorem skip_gap {g : Text} (h : Gap g) (s : Text) : skipSpaces (g ++ s) = skipSpaces s := by
  unfold skipSpaces
  induction g with
  | nil => rfl
  | cons c g ih =>
    rw [List.cons_append, List.dropWhile_cons_of_pos (gap_blank h c List.mem_cons_self)]
    exact ih fun x hx => h x (List.mem_cons_of_mem _ hx)

theorem skip_skip (s : Text) : skipSpaces (skipSpaces s) = skipSpaces s := by
  unfold skipSpaces
  induction s with
  | nil => rfl
  | cons c s ih =>
    by_cases hc : isBlank c = true
    · rw [List.dropWhile_cons_of_pos hc]
      exact ih
    · rw [List.dropWhile_cons_of_neg hc, List.dropWhile_cons_of_neg hc]

theorem skip_append {s : Text} (h : skipSpaces s ≠ []) (r : Text) : skipSpaces (s ++ r) = skipSpaces s ++ r := by
  unfold skipSpaces at *
  induction s with
  | nil => exact absurd rfl h
  | cons c s ih =>
    by_cases hc : isBlank c = true
    · rw [List.dropWhile_cons_of_pos hc] at h ⊢
      rw [List.cons_append, List.dropWhile_cons_of_pos hc]
      exact ih h
    · rw [List.dropWhile_cons_of_neg hc, List.cons_append, List.dropWhile_cons_of_neg hc]

theorem consume_skip {c : Char} {s t : Text} (h : skipSpaces s = skipSpaces t) : consume c s = consume c t := by
  unfold consume
  rw [h]

theorem primary_skip {lib : Libc} {s t : Text} (h : skipSpaces s = skipSpaces t) (k : Nat) : parsePrimary lib k s = parsePrimary lib k t := by
  cases k with
  | zero => rw [parsePrimary, parsePrimary]
  | succ k => rw [parsePrimary, parsePrimary, consume_skip h, h]

theorem unary_skip {lib : Libc} {s t : Text} (h : skipSpaces s = skipSpaces t) (k : Nat) : parseUnary lib k s = parseUnary lib k t := by
  cases k with
  | zero => rw [parseUnary, parseUnary]
  | succ k => rw [parseUnary, parseUnary, consume_skip (c := '+') h, consume_skip (c := '-') h, primary_skip h]

theorem mulDivLoop_skip {lib : Libc} {s t : Text} (h : skipSpaces s = skipSpaces t) (k : Nat) (v : ℝ) : mulDivLoop lib k v s = mulDivLoop lib k v t := by
  cases k with
  | zero => rw [mulDivLoop, mulDivLoop]
  | succ k => rw [mulDivLoop, mulDivLoop, consume_skip (c := '*') h, consume_skip (c := '/') h, h]

theorem mulDiv_skip {lib : Libc} {s t : Text} (h : skipSpaces s = skipSpaces t) (k : Nat) : parseMulDiv lib k s = parseMulDiv lib k t := by
  cases k with
  | zero => rw [parseMulDiv, parseMulDiv]
  | succ k => rw [parseMulDiv, parseMulDiv, unary_skip h]

theorem addSubLoop_skip {lib : Libc} {s t : Text} (h : skipSpaces s = skipSpaces t) (k : Nat) (v : ℝ) : addSubLoop lib k v s = addSubLoop lib k v t := by
  cases k with
  | zero => rw [addSubLoop, addSubLoop]
  | succ k => rw [addSubLoop, addSubLoop, consume_skip (c := '+') h, consume_skip (c := '-') h, h]

theorem addSub_skip {lib : Libc} {s t : Text} (h : skipSpaces s = skipSpaces t) (k : Nat) : parseAddSub lib k s = parseAddSub lib k t := by
  cases k with
  | zero => rw [parseAddSub, parseAddSub]
  | succ k => rw [parseAddSub, parseAddSub, mulDiv_skip h]

theorem consume_here (c : Char) (hc : isBlank c = false) (s : Text) : consume c (c :: s) = some s := by
  unfold consume skipSpaces
  rw [List.dropWhile_cons_of_neg (by simp [hc])]
  simp

theorem consume_not {c : Char} {s : Text} (h : ∀ d ∈ (skipSpaces s).head?, d ≠ c) : consume c s = none := by
  unfold consume
  split
  · rename_i d s' e
    rw [e] at h
    rw [if_neg]
    simpa using h d rfl
  · rfl

/-! ## what follows an expression -/

/-- a character that ends a number and a name -/
def Boundary (r : Text) : Prop := ∀ c ∈ r.head?, isBlank c = true ∨ c ∈ ['+', '-', '*', '/', ')', ',']

/-- no multiplication or division follows -/
def NoProduct (r : Text) : Prop := ∀ c ∈ (skipSpaces r).head?, c ≠ '*' ∧ c ≠ '/'

theorem boundary_gap {g r : Text} (hg : Gap g) (hr : Boundary r) : Boundary (g ++ r) := by
  cases g with
  | nil => exact hr
  | cons c g =>
    intro d hd
    cases hd
    exact .inl (gap_blank hg c List.mem_cons_self)

theorem boundary_char {c : Char} {r : Text} (h : c ∈ ['+', '-', '*', '/', ')', ',']) : Boundary (c :: r) := by
  intro d hd
  cases hd
  exact .inr h

theorem boundary_cases {c : Char} (h : isBlank c = true ∨ c ∈ ['+', '-', '*', '/', ')', ',']) :
    isWord c = false ∧ c.isDigit = false ∧ c ≠ '.' ∧ c ≠ 'e' ∧ c ≠ 'E' ∧ c ≠ 'x' ∧ c ≠ 'X' := by
  rw [isBlank_gap] at h
  have : c ∈ [' ', '\t', '\n', '\x0b', '\x0c', '\r'] ++ ['+', '-', '*', '/', ')', ','] := List.mem_append.2 h
  revert this
  generalize hl : [' ', '\t', '\n', '\x0b', '\x0c', '\r'] ++ ['+', '-', '*', '/', ')', ','] = l
  intro hc
  have key : ∀ d ∈ ([' ', '\t', '\n', '\x0b', '\x0c', '\r'] ++ ['+', '-', '*', '/', ')', ',']),
      isWord d = false ∧ d.isDigit = false ∧ d ≠ '.' ∧ d ≠ 'e' ∧ d ≠ 'E' ∧ d ≠ 'x' ∧ d ≠ 'X' := by decide
  exact key c (hl ▸ hc)

theorem boundary_stops {r : Text} (h : Boundary r) : Stops r := fun c hc => (boundary_cases (h c hc)).2

theorem noProduct_char {c : Char} {r : Text} (hb : isBlank c = false) (h : c ≠ '*' ∧ c ≠ '/') : NoProduct (c :: r) := by
  intro d hd
  unfold skipSpaces at hd
  rw [List.dropWhile_cons_of_neg (by simp [hb])] at hd
  cases hd
  exact h

/-! ## the first character -/

theorem numeral_head {l : Numeral} (h : l.WellFormed) : ∃ c s, l.text = c :: s ∧ (c.isDigit = true ∨ c = '.') := by
  obtain ⟨h1, h2, h3, h4, -⟩ := h
  unfold Numeral.text
  cases hw : l.whole with
  | cons c w => exact ⟨c, _, rfl, .inl (h1 c (by rw [hw]; exact List.mem_cons_self))⟩
  | nil =>
    cases hp : l.point with
    | false =>
      rw [hw, h4 hp] at h3
      exact absurd rfl h3
    | true => exact ⟨'.', _, rfl, .inr rfl⟩

theorem numeral_first {c : Char} (h : c.isDigit = true ∨ c = '.') : isBlank c = false ∧ c.isAlpha = false ∧ c ≠ '_' ∧ c ≠ '+' ∧ c ≠ '-' ∧ c ≠ '(' := by
  rcases h with h | rfl
  · have hw : isWord c = true := by unfold isWord Char.isAlphanum; simp [h]
    refine ⟨(isDigit_facts h).1, ?_, ?_, ?_, ?_, ?_⟩
    · obtain ⟨a, b⟩ := isDigit_range h
      unfold Char.isAlpha Char.isUpper Char.isLower
      have e1 : ¬ (65 ≤ c.val ∧ c.val ≤ 90) := fun hh => by
        have := UInt32.le_iff_toNat_le.1 hh.1
        have e : c.val.toNat = c.toNat := rfl
        simp at this; omega
      have e2 : ¬ (97 ≤ c.val ∧ c.val ≤ 122) := fun hh => by
        have := UInt32.le_iff_toNat_le.1 hh.1
        have e : c.val.toNat = c.toNat := rfl
        simp at this; omega
      simp
      constructor
      · intro h1; by_contra h2; exact e1 ⟨h1, by simpa using h2⟩
      · intro h1; by_contra h2; exact e2 ⟨h1, by simpa using h2⟩
    all_goals (rintro rfl; revert h; decide)
  · decide

theorem angle_first {p : Level} {a : AngleExpr} {s : Text} (h : AngleText p a s) : ∃ c t, skipSpaces s = c :: t ∧ c ≠ '*' ∧ c ≠ '/' ∧
    (p = .atom → c ≠ '+' ∧ c ≠ '-') := by
  have pass : ∀ {s : Text} (t : Text), (∃ c u, skipSpaces s = c :: u ∧ c ≠ '*' ∧ c ≠ '/') → ∃ c u, skipSpaces (s ++ t) = c :: u ∧ c ≠ '*' ∧ c ≠ '/' := by
    rintro s t ⟨c, u, e, h⟩
    refine ⟨c, u ++ t, ?_, h⟩
    rw [skip_append (by rw [e]; simp), e]
    rfl
  have char : ∀ (c : Char) (t : Text), isBlank c = false → skipSpaces (c :: t) = c :: t := by
    intro c t hc
    unfold skipSpaces
    rw [List.dropWhile_cons_of_neg (by simp [hc])]
  induction h with
  | number l hl hf =>
    obtain ⟨c, s, e, hc⟩ := numeral_head hl
    obtain ⟨h1, -, -, h4, h5, -⟩ := numeral_first hc
    refine ⟨c, s, by rw [e, char c s h1], ?_, ?_, fun _ => ⟨h4, h5⟩⟩
    all_goals (rintro rfl; rcases hc with hc | hc <;> revert hc <;> decide)
  | pi => exact ⟨'p', ['i'], rfl, by decide, by decide, fun _ => by decide⟩
  | parens a s _ _ => exact ⟨'(', _, char _ _ (by decide), by decide, by decide, fun _ => by decide⟩
  | signed a s _ ih => obtain ⟨c, t, e, h1, h2, -⟩ := ih; exact ⟨c, t, e, h1, h2, nofun⟩
  | plus a s _ _ => exact ⟨'+', _, char _ _ (by decide), by decide, by decide, nofun⟩
  | minus a s _ _ => exact ⟨'-', _, char _ _ (by decide), by decide, by decide, nofun⟩
  | product a s _ ih => obtain ⟨c, t, e, h1, h2, -⟩ := ih; exact ⟨c, t, e, h1, h2, nofun⟩
  | sum a s _ ih => obtain ⟨c, t, e, h1, h2, -⟩ := ih; exact ⟨c, t, e, h1, h2, nofun⟩
  | mul a b s t _ _ ih _ =>
    obtain ⟨c, u, e, h1, h2, -⟩ := ih
    obtain ⟨c, u, e, h1, h2⟩ := pass ('*' :: t) ⟨c, u, e, h1, h2⟩
    exact ⟨c, u, e, h1, h2, nofun⟩
  | div a b s t _ _ ih _ =>
    obtain ⟨c, u, e, h1, h2, -⟩ := ih
    obtain ⟨c, u, e, h1, h2⟩ := pass ('/' :: t) ⟨c, u, e, h1, h2⟩
    exact ⟨c, u, e, h1, h2, nofun⟩
  | add a b s t _ _ ih _ =>
    obtain ⟨c, u, e, h1, h2, -⟩ := ih
    obtain ⟨c, u, e, h1, h2⟩ := pass ('+' :: t) ⟨c, u, e, h1, h2⟩
    exact ⟨c, u, e, h1, h2, nofun⟩
  | sub a b s t _ _ ih _ =>
    obtain ⟨c, u, e, h1, h2, -⟩ := ih
    obtain ⟨c, u, e, h1, h2⟩ := pass ('-' :: t) ⟨c, u, e, h1, h2⟩
    exact ⟨c, u, e, h1, h2, nofun⟩
  | gaps p a g s g' hg _ _ ih =>
    obtain ⟨c, u, e, h⟩ := ih
    refine ⟨c, u ++ g', ?_, h⟩
    rw [skip_gap hg, skip_append (by rw [e]; simp), e]
    rfl

/-! ## parsing -/

/-- the parser `f` reads the value `v` (or throws, if there is none) and stops where `r` starts, up to white space -/
def Reads (f : Nat → Res (ℝ × Text)) (v : Option ℝ) (r : Text) : Prop :=
  match v with
  | some v => ∃ r', skipSpaces r' = skipSpaces r ∧ Ev f (.ok (v, r'))
  | none => ∃ m, Ev f (.error (.throw m))

/-- the parser `f` reads the value `v` (or throws, if there is none) and then does what `loop` does -/
def Continues (f : Nat → Res (ℝ × Text)) (v : Option ℝ) (loop : Nat → ℝ → Res (ℝ × Text)) : Prop :=
  match v with
  | some v => ∀ x, Ev (fun k => loop k v) x → Ev f x
  | none => ∃ m, Ev f (.error (.throw m))

/-- what the parser of a level does with a text followed by `r` -/
def LevelReads (lib : Libc) (v : Option ℝ) (s : Text) : Level → Prop
  | .atom => ∀ r, Boundary r → Reads (fun k => parsePrimary lib k (s ++ r)) v r
  | .signed => ∀ r, Boundary r → Reads (fun k => parseUnary lib k (s ++ r)) v r
  | .product => ∀ r, Boundary r → Continues (fun k => parseMulDiv lib k (s ++ r)) v (fun k v => mulDivLoop lib k v r)
  | .sum => ∀ r, Boundary r → NoProduct r → Continues (fun k => parseAddSub lib k (s ++ r)) v (fun k v => addSubLoop lib k v r)

theorem mulDivLoop_stop (lib : Libc) {r : Text} (h : NoProduct r) (v : ℝ) : Ev (fun k => mulDivLoop lib k v r) (.ok (v, skipSpaces r)) := by
  refine (Ev.const _).succ fun k => ?_
  rw [mulDivLoop, consume_not fun d hd => (h d hd).1, consume_not fun d hd => (h d hd).2]

theorem reads_atom_signed {lib : Libc} {a : AngleExpr} {s r : Text} (ha : AngleText .atom a s) {v : Option ℝ}
    (h : Reads (fun k => parsePrimary lib k (s ++ r)) v r) : Reads (fun k => parseUnary lib k (s ++ r)) v r := by
  obtain ⟨c, t, e, -, -, hc⟩ := angle_first ha
  obtain ⟨h1, h2⟩ := hc rfl
  have hs : skipSpaces (s ++ r) = c :: (t ++ r) := by
    rw [skip_append (by rw [e]; simp), e]
    rfl
  have key : ∀ k, parseUnary lib (k + 1) (s ++ r) = parsePrimary lib k (s ++ r) := by
    intro k
    rw [parseUnary, consume_not (by rw [hs]; intro d hd; cases hd; exact h1), consume_not (by rw [hs]; intro d hd; cases hd; exact h2)]
  cases v with
  | none => obtain ⟨m, hm⟩ := h; exact ⟨m, hm.succ key⟩
  | some v => obtain ⟨r', hr, hm⟩ := h; exact ⟨r', hr, hm.succ key⟩

/-- the parser of a level reads the texts of the level -/
theorem angle_reads {lib : Libc} {num : Numeral → ℝ} (hs : StrtodReads lib.strtod num) {p : Level} {a : AngleExpr} {s : Text}
    (h : AngleText p a s) : LevelReads lib (a.eval num) s p := by
  induction h with
  | number l hl hf =>
    intro r hr
    refine ⟨r, rfl, (Ev.const _).succ fun k => ?_⟩
    obtain ⟨c, t, e, hc⟩ := numeral_head hl
    obtain ⟨h1, h2, h3, h4, h5, h6⟩ := numeral_first hc
    have hsk : skipSpaces (l.text ++ r) = c :: (t ++ r) := by
      rw [e]
      unfold skipSpaces
      rw [List.cons_append, List.dropWhile_cons_of_neg (by simp [h1])]
    rw [parsePrimary, consume_not (by rw [hsk]; intro d hd; cases hd; exact h6), hsk]
    dsimp only
    rw [if_neg (by simp [h2, h3])]
    have hread := (hs l hl hf).2 r (boundary_stops hr)
    rw [e] at hread
    unfold parseNumber
    rw [show c :: (t ++ r) = c :: t ++ r from rfl, hread]
    dsimp only
    rw [if_neg (by simp), List.drop_left]
  | pi =>
    intro r hr
    refine ⟨r, rfl, (Ev.const _).succ fun k => ?_⟩
    have hsk : skipSpaces (['p', 'i'] ++ r) = 'p' :: 'i' :: r := rfl
    rw [parsePrimary, consume_not (by rw [hsk]; intro d hd; cases hd; decide), hsk]
    dsimp only
    rw [if_pos (by decide)]
    have hw : ('p' :: 'i' :: r).takeWhile isWord = ['p', 'i'] ∧ ('p' :: 'i' :: r).dropWhile isWord = r := by
      cases r with
      | nil => decide
      | cons c r =>
        have hc := (boundary_cases (hr c rfl)).1
        refine ⟨takeWhile_word (name := ['p', 'i']) (by decide) hc, ?_⟩
        rw [List.dropWhile_cons_of_pos (by decide), List.dropWhile_cons_of_pos (by decide), List.dropWhile_cons_of_neg (by simp [hc])]
    unfold parseIdentifier
    rw [hw.1, hw.2, if_pos rfl]
  | parens a s h ih =>
    intro r hr
    have hin := ih (')' :: r) (boundary_char (by decide)) (noProduct_char (by decide) (by decide))
    have hstart : ∀ k, parsePrimary lib (k + 1) ('(' :: (s ++ [')']) ++ r) = (do
        let (x, s'') ← parseAddSub lib k (s ++ ')' :: r)
        match consume ')' s'' with
        | none => .error (.throw "expected ')'")
        | some s''' => pure (x, s''')) := by
      intro k
      have : '(' :: (s ++ [')']) ++ r = '(' :: (s ++ ')' :: r) := by simp
      rw [this, parsePrimary, consume_here '(' (by decide)]
      rfl
    unfold Continues at hin
    cases hv : a.eval num with
    | none =>
      rw [hv] at hin
      obtain ⟨m, hm⟩ := hin
      exact ⟨m, hm.bind_error.succ hstart⟩
    | some v =>
      rw [hv] at hin
      have hl : Ev (fun k => addSubLoop lib k v (')' :: r)) (.ok (v, ')' :: r)) := by
        refine (Ev.const _).succ fun k => ?_
        rw [addSubLoop, consume_head (by decide) (by decide), consume_head (by decide) (by decide)]
        rfl
      refine ⟨r, rfl, Ev.succ ((hin _ hl).bind ?_) hstart⟩
      dsimp only
      rw [consume_here ')' (by decide)]
      exact Ev.const _
  | signed a s h ih => exact fun r hr => reads_atom_signed h (ih r hr)
  | plus a s h ih =>
    intro r hr
    have hstart : ∀ k, parseUnary lib (k + 1) ('+' :: s ++ r) = parseUnary lib k (s ++ r) := by
      intro k
      rw [parseUnary, List.cons_append, consume_here '+' (by decide)]
    have := ih r hr
    show Reads _ (a.eval num) r
    cases hv : a.eval num with
    | none => rw [hv] at this; obtain ⟨m, hm⟩ := this; exact ⟨m, hm.succ hstart⟩
    | some v => rw [hv] at this; obtain ⟨r', hr', hm⟩ := this; exact ⟨r', hr', hm.succ hstart⟩
  | minus a s h ih =>
    intro r hr
    have hstart : ∀ k, parseUnary lib (k + 1) ('-' :: s ++ r) = (do
        let (x, s'') ← parseUnary lib k (s ++ r)
        pure (-x, s'')) := by
      intro k
      rw [parseUnary, List.cons_append, consume_head (by decide) (by decide), consume_here '-' (by decide)]
    have := ih r hr
    show Reads _ ((a.eval num).map fun x => -x) r
    cases hv : a.eval num with
    | none => rw [hv] at this; obtain ⟨m, hm⟩ := this; exact ⟨m, hm.bind_error.succ hstart⟩
    | some v =>
      rw [hv] at this
      obtain ⟨r', hr', hm⟩ := this
      exact ⟨r', hr', Ev.succ (hm.bind (Ev.const _)) hstart⟩
  | product a s h ih =>
    intro r hr
    have hstart : ∀ k, parseMulDiv lib (k + 1) (s ++ r) = (do
        let (lhs, s') ← parseUnary lib k (s ++ r)
        mulDivLoop lib k lhs s') := fun k => by rw [parseMulDiv]
    have := ih r hr
    cases hv : a.eval num with
    | none => rw [hv] at this; obtain ⟨m, hm⟩ := this; exact ⟨m, hm.bind_error.succ hstart⟩
    | some v =>
      rw [hv] at this
      obtain ⟨r', hr', hm⟩ := this
      intro x hx
      exact Ev.succ (hm.bind (hx.congr fun k => mulDivLoop_skip hr' k v)) hstart
  | mul a b s t h h' ih ih' =>
    intro r hr
    have hin := ih ('*' :: (t ++ r)) (boundary_char (by decide))
    have e : s ++ '*' :: t ++ r = s ++ '*' :: (t ++ r) := by simp
    rw [e]
    show Continues _ ((a.eval num).bind fun x => (b.eval num).map fun y => x * y) _
    cases hv : a.eval num with
    | none => rw [hv] at hin; exact hin
    | some v =>
      rw [hv] at hin
      have hstart : ∀ k, mulDivLoop lib (k + 1) v ('*' :: (t ++ r)) = (do
          let (rhs, s'') ← parseUnary lib k (t ++ r)
          mulDivLoop lib k (v * rhs) s'') := by
        intro k
        rw [mulDivLoop, consume_here '*' (by decide)]
      have ht := ih' r hr
      cases hw : b.eval num with
      | none => rw [hw] at ht; obtain ⟨m, hm⟩ := ht; exact ⟨m, hin _ (hm.bind_error.succ hstart)⟩
      | some w =>
        rw [hw] at ht
        obtain ⟨r', hr', hm⟩ := ht
        intro x hx
        exact hin _ (Ev.succ (hm.bind (hx.congr fun k => mulDivLoop_skip hr' k _)) hstart)
  | div a b s t h h' ih ih' =>
    intro r hr
    have hin := ih ('/' :: (t ++ r)) (boundary_char (by decide))
    have e : s ++ '/' :: t ++ r = s ++ '/' :: (t ++ r) := by simp
    rw [e]
    show Continues _ ((a.eval num).bind fun x => (b.eval num).bind fun y => if y = 0 then none else some (x / y)) _
    cases hv : a.eval num with
    | none => rw [hv] at hin; exact hin
    | some v =>
      rw [hv] at hin
      have hstart : ∀ k, mulDivLoop lib (k + 1) v ('/' :: (t ++ r)) = (do
          let (rhs, s'') ← parseUnary lib k (t ++ r)
          if rhs = 0 then .error (.throw "division by zero")
          else mulDivLoop lib k (v / rhs) s'') := by
        intro k
        rw [mulDivLoop, consume_head (by decide) (by decide), consume_here '/' (by decide)]
      have ht := ih' r hr
      cases hw : b.eval num with
      | none => rw [hw] at ht; obtain ⟨m, hm⟩ := ht; exact ⟨m, hin _ (hm.bind_error.succ hstart)⟩
      | some w =>
        rw [hw] at ht
        obtain ⟨r', hr', hm⟩ := ht
        show Continues _ (if w = 0 then none else some (v / w)) _
        by_cases h0 : w = 0
        · rw [if_pos h0]
          refine ⟨"division by zero", hin _ (Ev.succ (hm.bind ((Ev.const _).congr fun k => ?_)) hstart)⟩
          dsimp only
          rw [if_pos h0]
        · rw [if_neg h0]
          intro x hx
          refine hin _ (Ev.succ (hm.bind (hx.congr fun k => ?_)) hstart)
          dsimp only
          rw [if_neg h0]
          exact mulDivLoop_skip hr' k _
  | sum a s h ih =>
    intro r hr hn
    have hin := ih r hr
    have hstart : ∀ k, parseAddSub lib (k + 1) (s ++ r) = (do
        let (lhs, s') ← parseMulDiv lib k (s ++ r)
        addSubLoop lib k lhs s') := fun k => by rw [parseAddSub]
    cases hv : a.eval num with
    | none => rw [hv] at hin; obtain ⟨m, hm⟩ := hin; exact ⟨m, hm.bind_error.succ hstart⟩
    | some v =>
      rw [hv] at hin
      intro x hx
      exact Ev.succ ((hin _ (mulDivLoop_stop lib hn v)).bind (hx.congr fun k => addSubLoop_skip (skip_skip r) k v)) hstart
  | add a b s t h h' ih ih' =>
    intro r hr hn
    have hin := ih ('+' :: (t ++ r)) (boundary_char (by decide)) (noProduct_char (by decide) (by decide))
    have e : s ++ '+' :: t ++ r = s ++ '+' :: (t ++ r) := by simp
    rw [e]
    show Continues _ ((a.eval num).bind fun x => (b.eval num).map fun y => x + y) _
    cases hv : a.eval num with
    | none => rw [hv] at hin; exact hin
    | some v =>
      rw [hv] at hin
      have hstart : ∀ k, addSubLoop lib (k + 1) v ('+' :: (t ++ r)) = (do
          let (rhs, s'') ← parseMulDiv lib k (t ++ r)
          addSubLoop lib k (v + rhs) s'') := by
        intro k
        rw [addSubLoop, consume_here '+' (by decide)]
      have ht := ih' r hr
      cases hw : b.eval num with
      | none => rw [hw] at ht; obtain ⟨m, hm⟩ := ht; exact ⟨m, hin _ (hm.bind_error.succ hstart)⟩
      | some w =>
        rw [hw] at ht
        intro x hx
        exact hin _ (Ev.succ ((ht _ (mulDivLoop_stop lib hn w)).bind (hx.congr fun k => addSubLoop_skip (skip_skip r) k _)) hstart)
  | sub a b s t h h' ih ih' =>
    intro r hr hn
    have hin := ih ('-' :: (t ++ r)) (boundary_char (by decide)) (noProduct_char (by decide) (by decide))
    have e : s ++ '-' :: t ++ r = s ++ '-' :: (t ++ r) := by simp
    rw [e]
    show Continues _ ((a.eval num).bind fun x => (b.eval num).map fun y => x - y) _
    cases hv : a.eval num with
    | none => rw [hv] at hin; exact hin
    | some v =>
      rw [hv] at hin
      have hstart : ∀ k, addSubLoop lib (k + 1) v ('-' :: (t ++ r)) = (do
          let (rhs, s'') ← parseMulDiv lib k (t ++ r)
          addSubLoop lib k (v + -rhs) s'') := by
        intro k
        rw [addSubLoop, consume_head (by decide) (by decide), consume_here '-' (by decide)]
      have ht := ih' r hr
      cases hw : b.eval num with
      | none => rw [hw] at ht; obtain ⟨m, hm⟩ := ht; exact ⟨m, hin _ (hm.bind_error.succ hstart)⟩
      | some w =>
        rw [hw] at ht
        intro x hx
        refine hin _ (Ev.succ ((ht _ (mulDivLoop_stop lib hn w)).bind (hx.congr fun k => ?_)) hstart)
        dsimp only
        rw [addSubLoop_skip (skip_skip r), sub_eq_add_neg]
  | gaps p a g s g' hg hg' h ih =>
    have e : ∀ r, g ++ (s ++ g') ++ r = g ++ (s ++ (g' ++ r)) := fun r => by simp
    cases p with
    | atom =>
      intro r hr
      have := ih (g' ++ r) (boundary_gap hg' hr)
      rw [e]
      simp only [primary_skip (skip_gap hg (s ++ (g' ++ r)))]
      cases hv : a.eval num with
      | none => rw [hv] at this; exact this
      | some v => rw [hv] at this; obtain ⟨r', h1, h2⟩ := this; exact ⟨r', h1.trans (skip_gap hg' r), h2⟩
    | signed =>
      intro r hr
      have := ih (g' ++ r) (boundary_gap hg' hr)
      rw [e]
      simp only [unary_skip (skip_gap hg (s ++ (g' ++ r)))]
      cases hv : a.eval num with
      | none => rw [hv] at this; exact this
      | some v => rw [hv] at this; obtain ⟨r', h1, h2⟩ := this; exact ⟨r', h1.trans (skip_gap hg' r), h2⟩
    | product =>
      intro r hr
      have := ih (g' ++ r) (boundary_gap hg' hr)
      rw [e]
      simp only [mulDiv_skip (skip_gap hg (s ++ (g' ++ r)))]
      cases hv : a.eval num with
      | none => rw [hv] at this; exact this
      | some v => rw [hv] at this; exact fun x hx => this x (hx.congr fun k => mulDivLoop_skip (skip_gap hg' r) k v)
    | sum =>
      intro r hr hn
      have := ih (g' ++ r) (boundary_gap hg' hr) (by unfold NoProduct; rw [skip_gap hg']; exact hn)
      rw [e]
      simp only [addSub_skip (skip_gap hg (s ++ (g' ++ r)))]
      cases hv : a.eval num with
      | none => rw [hv] at this; exact this
      | some v => rw [hv] at this; exact fun x hx => this x (hx.congr fun k => addSubLoop_skip (skip_gap hg' r) k v)

/-- an angle is read as its value; division by zero throws -/
theorem parseAngle_reads {lib : Libc} {num : Numeral → ℝ} (hs : StrtodReads lib.strtod num) {a : AngleExpr} {s : Text}
    (h : AngleText .sum a s) : match a.eval num with
      | some v => parseAngle lib s = .ok v
      | none => ∃ m, parseAngle lib s = .error (.throw m) := by
  have := angle_reads hs h [] (fun c hc => by cases hc) (fun c hc => by cases hc)
  unfold Continues at this
  rw [List.append_nil] at this
  cases hv : a.eval num with
  | none =>
    rw [hv] at this
    obtain ⟨m, hm⟩ := this
    refine ⟨m, ?_⟩
    unfold parseAngle
    rw [ev_addSub hm]
    rfl
  | some v =>
    rw [hv] at this
    have hl : Ev (fun k => addSubLoop lib k v []) (.ok (v, [])) := by
      refine (Ev.const _).succ fun k => ?_
      rw [addSubLoop, consume_nil, consume_nil]
      rfl
    dsimp only
    unfold parseAngle
    rw [ev_addSub (this _ hl)]
    rfl

end Verif.Proofs
