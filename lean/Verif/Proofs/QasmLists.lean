import Verif.Proofs.QasmScan
import Verif.Proofs.QasmRegs
import Verif.Proofs.QasmLibc

/-! # OpenQASM: operand lists and parameter lists as they may be written -/

namespace Verif.Proofs
open Verif Verif.Spec Verif.Model

/-- the code returns what the specification says, and throws where that is undefined -/
def Agree {α : Type} (o : Option α) (x : Res α) : Prop :=
  match o with
  | some a => x = .ok a
  | none => ∃ m, x = .error (.throw m)

theorem agree_mapM {α β γ : Type} {f : α → Option γ} {g : β → Res γ} {l : List α} {l' : List β} (h : List.Forall₂ (fun a b => Agree (f a) (g b)) l l') :
    Agree (l.mapM f) (l'.mapM g) := by
  induction h with
  | nil => exact rfl
  | @cons a b l l' hab _ ih =>
    rw [List.mapM_cons, List.mapM_cons]
    cases hf : f a with
    | none =>
      rw [hf] at hab
      obtain ⟨m, hm⟩ := hab
      exact ⟨m, by rw [hm]; rfl⟩
    | some c =>
      rw [hf] at hab
      rw [show g b = .ok c from hab, ok_bind]
      cases hl : l.mapM f with
      | none =>
        rw [hl] at ih
        obtain ⟨m, hm⟩ := ih
        exact ⟨m, by rw [hm]; rfl⟩
      | some cs =>
        rw [hl] at ih
        rw [show l'.mapM g = .ok cs from ih]
        exact rfl

/-! ## parentheses and commas -/

/-- texts that `split_comma_list` and the search for the closing parenthesis pass over -/
def Neutral (s : Text) : Prop :=
  (∀ d rest cur parts, commaLoop (s ++ rest) d cur parts = commaLoop rest d (cur ++ s) parts) ∧
  ∀ rest (d : Int) i, 0 < d → closeIndex (s ++ rest) d i = closeIndex rest d (i + s.length)

theorem Neutral.append {s t : Text} (hs : Neutral s) (ht : Neutral t) : Neutral (s ++ t) := by
  constructor
  · intro d rest cur parts
    rw [List.append_assoc, hs.1, ht.1, List.append_assoc]
  · intro rest d i hd
    rw [List.append_assoc, hs.2 _ _ _ hd, ht.2 _ _ _ hd, List.length_append, Nat.add_assoc]

theorem neutral_nil : Neutral [] := ⟨fun d rest cur parts => by simp, fun rest d i _ => by simp⟩

theorem closeIndex_char {c : Char} (h : c ≠ '(' ∧ c ≠ ')') (rest : Text) {d : Int} (hd : 0 < d) (i : Nat) :
    closeIndex (c :: rest) d i = closeIndex rest d (i + 1) := by
  have := closeIndex_atom (s := [c]) (by intro x hx; rw [List.mem_singleton.1 hx]; exact h) rest (d := d) (by omega) i
  exact this

theorem neutral_char {c : Char} (h : c ≠ '(' ∧ c ≠ ')' ∧ c ≠ ',') : Neutral [c] := by
  constructor
  · intro d rest cur parts
    have e1 : (c == '(') = false := by simpa using h.1
    have e2 : (c == ')') = false := by simpa using h.2.1
    have e3 : (c == ',') = false := by simpa using h.2.2
    rw [List.singleton_append, commaLoop.eq_def]
    simp only [e1, e2, e3, Bool.false_eq_true, if_false, Bool.false_and]
  · intro rest d i hd
    exact closeIndex_char ⟨h.1, h.2.1⟩ rest hd i

theorem Neutral.cons {c : Char} (h : c ≠ '(' ∧ c ≠ ')' ∧ c ≠ ',') {s : Text} (hs : Neutral s) : Neutral (c :: s) :=
  (neutral_char h).append hs

theorem neutral_chars {s : Text} (h : ∀ c ∈ s, c ≠ '(' ∧ c ≠ ')' ∧ c ≠ ',') : Neutral s := by
  induction s with
  | nil => exact neutral_nil
  | cons c s ih => exact .cons (h c List.mem_cons_self) (ih fun x hx => h x (List.mem_cons_of_mem _ hx))

theorem neutral_parens {s : Text} (h : Neutral s) : Neutral ('(' :: (s ++ [')'])) := by
  have e : ∀ rest, '(' :: (s ++ [')']) ++ rest = '(' :: (s ++ ')' :: rest) := fun rest => by simp
  constructor
  · intro d rest cur parts
    rw [e, commaLoop.eq_def]
    simp only [beq_self_eq_true, if_true]
    rw [h.1, commaLoop.eq_def]
    simp only [beq_self_eq_true, if_true, show (')' == '(') = false by decide, Bool.false_eq_true, if_false]
    simp
  · intro rest d i hd
    rw [e, closeIndex]
    have e1 : (d + 1 == 0) = false := by rw [beq_eq_false_iff_ne]; omega
    have e2 : ((d + 1 - 1 : Int) == 0) = false := by rw [beq_eq_false_iff_ne]; omega
    simp only [beq_self_eq_true, if_true, show ('(' == ')') = false by decide, Bool.false_eq_true, if_false, e1]
    rw [h.2 _ _ _ (by omega), closeIndex]
    simp only [beq_self_eq_true, if_true, show (')' == '(') = false by decide, Bool.false_eq_true, if_false, e2]
    rw [Int.add_sub_cancel]
    congr 1
    simp
    omega

theorem neutral_words {s : Text} (h : ∀ c ∈ s, isWord c = true) : Neutral s :=
  neutral_chars fun c hc => ⟨word_ne (h c hc) (by decide), word_ne (h c hc) (by decide), word_ne (h c hc) (by decide)⟩

theorem neutral_gap {s : Text} (h : Gap s) : Neutral s := by
  refine neutral_chars fun c hc => ?_
  have key : ∀ c ∈ [' ', '\t', '\n', '\x0b', '\x0c', '\r'], c ≠ '(' ∧ c ≠ ')' ∧ c ≠ ',' := by decide
  exact key c (h c hc)

theorem angle_neutral {p : Level} {a : AngleExpr} {s : Text} (h : AngleText p a s) : Neutral s := by
  induction h with
  | number l hl _ =>
    refine neutral_chars fun c hc => ?_
    rcases numeral_chars hl c hc with h | h
    · exact ⟨word_ne (digit_word h) (by decide), word_ne (digit_word h) (by decide), word_ne (digit_word h) (by decide)⟩
    · have key : ∀ c ∈ ['.', 'e', 'E', '-', '+'], c ≠ '(' ∧ c ≠ ')' ∧ c ≠ ',' := by decide
      exact key c h
  | pi => exact neutral_chars (by decide)
  | parens a s _ ih => exact neutral_parens ih
  | signed _ _ _ ih => exact ih
  | product _ _ _ ih => exact ih
  | sum _ _ _ ih => exact ih
  | plus _ _ _ ih => exact .cons (by decide) ih
  | minus _ _ _ ih => exact .cons (by decide) ih
  | mul _ _ _ _ _ _ i j => exact i.append (.cons (by decide) j)
  | div _ _ _ _ _ _ i j => exact i.append (.cons (by decide) j)
  | add _ _ _ _ _ _ i j => exact i.append (.cons (by decide) j)
  | sub _ _ _ _ _ _ i j => exact i.append (.cons (by decide) j)
  | gaps _ _ _ _ _ hg hg' _ ih => exact (neutral_gap hg).append (ih.append (neutral_gap hg'))

theorem element_neutral {x : Text × Nat} {s : Text} (h : ElementText x s) : Neutral s := by
  obtain ⟨name, i, g, g', g'', ds, h1, h2, h3, h4, h5⟩ := h
  exact ((neutral_words (ident_chars h1)).append (neutral_gap h2)).append (.cons (by decide) (((neutral_gap h3).append
    ((neutral_words fun c hc => digit_word (h5.2.1 c hc)).append (neutral_gap h4))).append (.cons (by decide) neutral_nil)))

/-- the closing parenthesis of a parameter list -/
theorem comma_close {α : Type} {P : α → Text → Prop} (hP : ∀ a s, P a s → Neutral s) {l : List α} {s : Text} (h : CommaText P l s)
    (rest : Text) {d : Int} (hd : 0 < d) (i : Nat) : closeIndex (s ++ rest) d i = closeIndex rest d (i + s.length) := by
  induction h generalizing i with
  | one a g s g' hg hg' h => exact ((neutral_gap hg).append ((hP a s h).append (neutral_gap hg'))).2 rest d i hd
  | cons a l g s g' t hg hg' h _ ih =>
    rw [List.append_assoc, ((neutral_gap hg).append ((hP a s h).append (neutral_gap hg'))).2 _ d i hd, List.cons_append,
      closeIndex_char (by decide) _ hd, ih]
    congr 1
    simp
    omega

theorem comma_loop {α : Type} {P : α → Text → Prop} (hP : ∀ a s, P a s → Neutral s ∧ trim s ≠ []) {l : List α} {s : Text} (h : CommaText P l s)
    (parts : List Text) : ∃ found, commaLoop s 0 [] parts = .ok (parts ++ found) ∧ List.Forall₂ (fun a t => ∃ u, P a u ∧ t = trim u) l found := by
  have step : ∀ {a : α} {g s g' : Text}, Gap g → Gap g' → P a s → ∀ rest parts,
      commaLoop (g ++ (s ++ g') ++ rest) 0 [] parts = commaLoop rest 0 (g ++ (s ++ g')) parts := by
    intro a g s g' hg hg' h rest parts
    exact ((neutral_gap hg).append ((hP a s h).1.append (neutral_gap hg'))).1 0 rest [] parts
  induction h generalizing parts with
  | one a g s g' hg hg' h =>
    refine ⟨[trim s], ?_, .cons ⟨s, h, rfl⟩ .nil⟩
    have := step hg hg' h [] parts
    rw [List.append_nil] at this
    have hne : (g ++ (s ++ g')).isEmpty = false := by
      rw [List.isEmpty_eq_false_iff]
      intro e
      have : s = [] := by
        have := congrArg List.length e
        simp at this
        exact this.2.1
      rw [this] at h
      exact (hP a [] h).2 rfl
    rw [this, commaLoop, if_neg (by simp), hne, trim_gaps hg hg']
    rfl
  | cons a l g s g' t hg hg' h _ ih =>
    obtain ⟨found, e, hf⟩ := ih (parts ++ [trim s])
    refine ⟨trim s :: found, ?_, .cons ⟨s, h, rfl⟩ hf⟩
    rw [step hg hg' h, commaLoop, if_neg (by decide), if_neg (by decide), if_pos (by decide), trim_gaps hg hg', e]
    simp

/-- a comma list is split into its parts -/
theorem comma_split {α : Type} {P : α → Text → Prop} (hP : ∀ a s, P a s → Neutral s ∧ trim s ≠ []) {l : List α} {s : Text} (h : CommaText P l s) :
    ∃ found, splitCommaList s = .ok found ∧ List.Forall₂ (fun a t => ∃ u, P a u ∧ t = trim u) l found := by
  obtain ⟨found, e, hf⟩ := comma_loop hP h []
  refine ⟨found, ?_, hf⟩
  unfold splitCommaList
  rw [e, ok_bind]
  have : ([] ++ found == [[]]) = false := by
    rw [beq_eq_false_iff_ne, List.nil_append]
    rintro rfl
    cases hf with
    | cons h _ =>
      obtain ⟨u, hu, e⟩ := h
      exact (hP _ u hu).2 e.symm
  rw [this]
  rfl

/-- white space around a comma list does not matter -/
theorem comma_trim {α : Type} {P : α → Text → Prop} (hP : ∀ a s, P a s → Trimmed s ∧ s ≠ []) {l : List α} {s : Text} (h : CommaText P l s) :
    CommaText P l (trim s) := by
  have nil : Gap [] := fun c hc => by cases hc
  have hr : ∀ {l : List α} {s : Text}, CommaText P l s → CommaText P l (rtrim s) ∧ rtrim s ≠ [] := by
    intro l s h
    have key : ∀ {a : α} {g s g' : Text}, Gap g' → P a s → rtrim (g ++ (s ++ g')) = g ++ (s ++ []) := by
      intro a g s g' hg' h
      obtain ⟨ht, hne⟩ := hP a s h
      rw [← List.append_assoc, rtrim_gap hg']
      rcases List.eq_nil_or_concat s with e | ⟨s', c, e⟩
      · exact absurd e hne
      · have hc : isBlank c = false := ht.2 c (by rw [e, List.concat_eq_append, List.getLast?_concat]; rfl)
        rw [e, List.concat_eq_append, ← List.append_assoc, rtrim_solid hc]
        simp [rtrim]
    induction h with
    | one a g s g' hg hg' h =>
      rw [key hg' h]
      refine ⟨.one a g s [] hg nil h, ?_⟩
      simp [(hP a s h).2]
    | cons a l g s g' t hg hg' h _ ih =>
      rw [rtrim_solid (by decide)]
      exact ⟨.cons a l g s g' _ hg hg' h ih.1, by simp⟩
  have hl : CommaText P l (skipSpaces s) := by
    have key : ∀ {a : α} {s rest : Text}, P a s → skipSpaces (s ++ rest) = s ++ rest := by
      intro a s rest h
      obtain ⟨ht, hne⟩ := hP a s h
      refine dropWhile_head fun c hc => ht.1 c ?_
      cases s with
      | nil => exact absurd rfl hne
      | cons d s => exact hc
    cases h with
    | one a g s g' hg hg' h =>
      rw [skip_gap hg, key h]
      exact .one a [] s g' nil hg' h
    | cons a l g s g' t hg hg' h ht =>
      rw [List.append_assoc, skip_gap hg, List.append_assoc, key h]
      have := CommaText.cons a l [] s g' t nil hg' h ht
      simpa using this
  exact (hr hl).1

/-! ## elements of registers -/

theorem element_trimmed {x : Text × Nat} {s : Text} (h : ElementText x s) : Trimmed s ∧ s ≠ [] := by
  obtain ⟨name, i, g, g', g'', ds, h1, h2, h3, h4, h5⟩ := h
  refine ⟨⟨fun c hc => ?_, fun c hc => ?_⟩, by simp⟩
  · cases hn : name with
    | nil => exact absurd hn h1.1
    | cons d n =>
      rw [hn] at hc
      cases hc
      exact word_blank (ident_chars h1 c (by rw [hn]; exact List.mem_cons_self))
  · have e : name ++ g ++ '[' :: (g' ++ (ds ++ g'') ++ [']']) = (name ++ g ++ '[' :: (g' ++ (ds ++ g''))) ++ [']'] := by simp
    rw [e, List.getLast?_concat] at hc
    cases hc
    decide

theorem element_trim {x : Text × Nat} {s : Text} (h : ElementText x s) : trim s = s := trim_of_trimmed (element_trimmed h).1

theorem trim_right {s g : Text} (hs : Solid s) (hg : Gap g) : trim (s ++ g) = s := by
  have := trim_gaps (g := []) (fun c hc => by cases hc) hg s
  rw [List.nil_append] at this
  rw [this, trim_of_trimmed hs.trimmed]

theorem element_bracketed {x : Text × Nat} {s : Text} (h : ElementText x s) : ∃ ds, Digits x.2 ds ∧ bracketed s = some (x.1, ds) := by
  obtain ⟨name, i, g, g', g'', ds, h1, h2, h3, h4, h5⟩ := h
  refine ⟨ds, h5, ?_⟩
  have gapok : ∀ {g : Text}, Gap g → ∀ c ∈ g, c ≠ '[' ∧ c ≠ ']' := by
    intro g hg c hc
    have key : ∀ c ∈ [' ', '\t', '\n', '\x0b', '\x0c', '\r'], c ≠ '[' ∧ c ≠ ']' := by decide
    exact key c (hg c hc)
  have wordok : ∀ {s : Text}, (∀ c ∈ s, isWord c = true) → ∀ c ∈ s, c ≠ '[' ∧ c ≠ ']' :=
    fun hs c hc => ⟨word_ne (hs c hc) (by decide), word_ne (hs c hc) (by decide)⟩
  have hd : ∀ c ∈ ds, isWord c = true := fun c hc => digit_word (h5.2.1 c hc)
  rw [bracketed_indexed (name := name ++ g) (ix := g' ++ (ds ++ g'')), trim_right (fun c hc => word_blank (ident_chars h1 c hc)) h2, trim_gaps h3 h4,
    trim_of_trimmed (Solid.trimmed fun c hc => word_blank (hd c hc))]
  · intro c hc
    rcases List.mem_append.1 hc with hc | hc
    · exact wordok (ident_chars h1) c hc
    · exact gapok h2 c hc
  · intro c hc
    rcases List.mem_append.1 hc with hc | hc
    · exact gapok h3 c hc
    · rcases List.mem_append.1 hc with hc | hc
      · exact wordok hd c hc
      · exact gapok h4 c hc

theorem wholeInteger_digits {n : Nat} {ds : Text} (h : Digits n ds) : wholeInteger ds = some (if n ≥ 2 ^ 64 then 2 ^ 64 - 1 else n) := by
  obtain ⟨h1, h2, h3⟩ := h
  rw [natOfDigits_digitsValue] at h3
  have hs : strtoull ds = some (if n ≥ 2 ^ 64 then 2 ^ 64 - 1 else n, []) := by
    unfold strtoull
    split
    rename_i neg s e
    have : neg = false ∧ s = ds := by
      split at e
      · rename_i s' e'
        exact absurd (h2 '-' (by simp)) (by decide)
      · rename_i s' e'
        exact absurd (h2 '+' (by simp)) (by decide)
      · cases e
        exact ⟨rfl, rfl⟩
    obtain ⟨rfl, rfl⟩ := this
    rw [takeWhile_all h2, dropWhile_all h2]
    simp [h1, h3]
  unfold wholeInteger
  rw [hs]

/-- an operand stands for its flat index -/
theorem element_flat {regs : Registers} {total : Nat} (hc : Consecutive regs total) (ht : totalSize (declsOf regs) < 2 ^ 64) {x : Text × Nat} {s : Text}
    (h : ElementText x s) : Agree (flatIndex (declsOf regs) x.1 x.2) (parseIndexedRegister s regs) := by
  obtain ⟨ds, hd, hb⟩ := element_bracketed h
  unfold parseIndexedRegister
  rw [element_trim h, hb]
  dsimp only
  cases hl : regs.lookup x.1 with
  | none =>
    rw [flatIndex_unknown (lookup_none_ne hl)]
    exact ⟨_, rfl⟩
  | some r =>
    obtain ⟨b, a, e, ho, hbf⟩ := hc.1 x.1 r hl
    dsimp only
    rw [wholeInteger_digits hd]
    dsimp only
    have hf := flatIndex_before (after := a) (r := r) hbf x.2
    rw [← e] at hf
    have hsum : totalSize (declsOf b) + r.size ≤ totalSize (declsOf regs) := by
      rw [e]
      unfold declsOf
      rw [List.map_append, totalSize_append, List.map_cons]
      show _ ≤ _ + (r.size + _)
      omega
    rw [hf]
    by_cases hlt : x.2 < r.size
    · rw [if_pos hlt, if_neg (show ¬ x.2 ≥ 2 ^ 64 by omega), if_neg (by omega), ho, Nat.mod_add_mod, Nat.mod_eq_of_lt (by omega)]
      exact rfl
    · rw [if_neg hlt, if_pos (by split <;> omega)]
      exact ⟨_, rfl⟩

end Verif.Proofs
