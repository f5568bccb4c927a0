import Verif.Proofs.QasmStmt
import Verif.Proofs.QasmFuel
import Verif.Spec.QasmLoose

/-! # OpenQASM: what has been read was written that way -/

namespace Verif.Proofs
open Verif Verif.Spec Verif.Model

/-! ## white space -/

theorem trim_split (s : Text) : ∃ g g', Gap g ∧ Gap g' ∧ s = g ++ (trim s ++ g') := by
  obtain ⟨g, hg, e⟩ := skip_split s
  obtain ⟨g', hg', e'⟩ := rtrim_split (skipSpaces s)
  refine ⟨g, g', hg, hg', ?_⟩
  rw [trim_eq, ← e', ← e]

/-- the end of a text without white space at its end -/
theorem suffix_trim {a t : Text} (h : Trimmed (a ++ t)) : ∃ g, Gap g ∧ t = g ++ trim t := by
  obtain ⟨g, g', hg, hg', e⟩ := trim_split t
  rcases List.eq_nil_or_concat g' with rfl | ⟨u, c, rfl⟩
  · exact ⟨g, hg, by rw [List.append_nil] at e; exact e⟩
  · exfalso
    have := h.2 c (by rw [e, List.concat_eq_append, ← List.append_assoc, ← List.append_assoc, ← List.append_assoc, List.getLast?_concat]; rfl)
    rw [gap_blank hg' c (by simp)] at this
    cases this

theorem tight_trim (s : Text) : Tight (trim s) := by
  obtain ⟨h1, h2⟩ := trimmed_trim s
  refine ⟨fun c hc h => ?_, fun c hc h => ?_⟩
  · have := h1 c hc
    rw [isBlank_gap.2 h] at this
    cases this
  · have := h2 c hc
    rw [isBlank_gap.2 h] at this
    cases this

theorem gap_append {g g' : Text} (h : Gap g) (h' : Gap g') : Gap (g ++ g') := fun c hc => (List.mem_append.1 hc).elim (h c) (h' c)

theorem trim_gap {s : Text} (h : trim s = []) : Gap s := by
  obtain ⟨g, g', hg, hg', e⟩ := trim_split s
  rw [h, List.nil_append] at e
  rw [e]
  exact gap_append hg hg'

theorem apart_of {s : Text} (h : ∀ c ∈ s.head?, isWord c = false) : Apart s := by
  intro c hc
  have := h c hc
  unfold isWord at this
  rw [Bool.or_eq_false_iff] at this
  exact ⟨this.1, by simpa using this.2⟩

/-! ## comments -/

theorem first_char (d : Char) (s : Text) : d ∉ s ∨ ∃ a b, s = a ++ d :: b ∧ d ∉ a := by
  by_cases h : d ∈ s
  · right
    obtain ⟨a, b, e, ha⟩ := List.append_of_mem h |>.elim fun a h => h.elim fun b e => (⟨a, b, e, trivial⟩ : ∃ a b, s = a ++ d :: b ∧ True)
    clear ha e a b
    induction s with
    | nil => cases h
    | cons c s ih =>
      by_cases hc : d = c
      · exact ⟨[], s, by rw [hc]; rfl, by simp⟩
      · obtain ⟨a, b, e, ha⟩ := ih ((List.mem_cons.1 h).resolve_left hc)
        exact ⟨c :: a, b, by rw [e]; rfl, by simp [hc, ha]⟩
  · exact .inl h

theorem first_close (s : Text) : ¬ ['*', '/'] <:+: s ∨ ∃ a b, s = a ++ '*' :: '/' :: b ∧ ¬ ['*', '/'] <:+: a := by
  induction s with
  | nil => exact .inl (by decide)
  | cons c s ih =>
    by_cases h : ∃ b, c :: s = '*' :: '/' :: b
    · obtain ⟨b, e⟩ := h
      exact .inr ⟨[], b, e, by decide⟩
    · rcases ih with hn | ⟨a, b, e, ha⟩
      · refine .inl ?_
        rw [List.infix_cons_iff]
        rintro (⟨b, e⟩ | h')
        · exact h ⟨b, e.symm⟩
        · exact hn h'
      · refine .inr ⟨c :: a, b, by rw [e]; rfl, ?_⟩
        rw [List.infix_cons_iff]
        rintro (⟨u, e'⟩ | h')
        · refine h ⟨u ++ '*' :: '/' :: b, ?_⟩
          rw [e, ← List.cons_append, ← e']
          rfl
        · exact ha h'

theorem scan_open_string {s : Text} (h : '"' ∉ s) (cur : Text) (st : List Text) : (scan s ⟨st, cur, false, false, true⟩).inString = true := by
  have := scan_string (s := s) (fun c hc e => h (e ▸ hc)) [] cur st
  rw [List.append_nil] at this
  rw [this, scan]

theorem scan_open_block {s : Text} (h : ¬ ['*', '/'] <:+: s) (cur : Text) (st : List Text) :
    (scan s ⟨st, cur, false, true, false⟩).inBlock = true := by
  induction s with
  | nil => rw [scan]
  | cons c s ih =>
    have step : scan (c :: s) ⟨st, cur, false, true, false⟩ = scan s ⟨st, cur, false, true, false⟩ := by
      cases s with
      | nil => rw [scan.eq_def]; simp
      | cons d s =>
        have hn : ¬ (c = '*' ∧ d = '/') := by
          rintro ⟨rfl, rfl⟩
          exact h ⟨[], s, rfl⟩
        rw [scan.eq_def]
        simp [hn]
    rw [step]
    exact ih fun hh => h (hh.trans (List.suffix_cons c s).isInfix)

theorem trim_ne {s : Text} {c : Char} (h : c ∈ s) (hc : isBlank c = false) : trim s ≠ [] := by
  intro e
  rw [isBlank_gap.2 (trim_gap e c h)] at hc
  cases hc

/-- a text without open comment, open string and statement without semicolon is one with comments inserted -/
theorem commented_of_scan (n : Nat) : ∀ (raw : Text), raw.length ≤ n → ∀ (cur : Text) (st : List Text),
    (scan raw ⟨st, cur, false, false, false⟩).inBlock = false → (scan raw ⟨st, cur, false, false, false⟩).inString = false →
    trim (scan raw ⟨st, cur, false, false, false⟩).current = [] → ∃ clean, Commented raw clean := by
  induction n with
  | zero =>
    intro raw hl
    rw [Nat.le_zero, List.length_eq_zero_iff] at hl
    subst hl
    intro _ _ _ _ _
    exact ⟨[], .nil⟩
  | succ n ih =>
    intro raw hl cur st h1 h2 h3
    cases raw with
    | nil => exact ⟨[], .nil⟩
    | cons c r =>
      rw [List.length_cons] at hl
      by_cases hq : c = '"'
      · subst hq
        rw [scan_quote, Bool.not_false] at h1 h2 h3
        rcases first_char '"' r with hn | ⟨a, b, rfl, ha⟩
        · rw [scan_open_string hn] at h2
          cases h2
        · rw [scan_string (fun c hc e => ha (e ▸ hc)), scan_quote, Bool.not_true] at h1 h2 h3
          rw [List.length_append, List.length_cons] at hl
          obtain ⟨clean, hc⟩ := ih b (by omega) _ _ h1 h2 h3
          exact ⟨_, .string a b clean ha hc⟩
      by_cases hs : c = '/'
      · subst hs
        cases r with
        | nil =>
          exfalso
          have e : scan ['/'] ⟨st, cur, false, false, false⟩ = ⟨st, cur ++ ['/'], false, false, false⟩ := by
            rw [scan.eq_def]
            simp [scan]
          rw [e] at h3
          exact trim_ne (c := '/') (by simp) (by decide) h3
        | cons d r =>
          rw [List.length_cons] at hl
          by_cases hd : d = '/'
          · subst hd
            rcases first_char '\n' r with hn | ⟨a, b, rfl, ha⟩
            · exact ⟨[], .lastLine r hn⟩
            · have e : scan ('/' :: '/' :: (a ++ '\n' :: b)) ⟨st, cur, false, false, false⟩ = scan b ⟨st, cur, false, false, false⟩ := by
                refine Eq.trans ?_ (scan_line ha b cur st)
                rw [scan.eq_def]
                simp
              rw [e] at h1 h2 h3
              rw [List.length_append, List.length_cons] at hl
              obtain ⟨clean, hc⟩ := ih b (by omega) _ _ h1 h2 h3
              exact ⟨_, .line a b clean ha hc⟩
          by_cases hd' : d = '*'
          · subst hd'
            have e0 : scan ('/' :: '*' :: r) ⟨st, cur, false, false, false⟩ = scan r ⟨st, cur, false, true, false⟩ := by
              rw [scan.eq_def]
              simp
            rw [e0] at h1 h2 h3
            rcases first_close r with hn | ⟨a, b, rfl, ha⟩
            · rw [scan_open_block hn] at h1
              cases h1
            · rw [scan_block ha] at h1 h2 h3
              rw [List.length_append, List.length_cons, List.length_cons] at hl
              obtain ⟨clean, hc⟩ := ih b (by omega) _ _ h1 h2 h3
              exact ⟨_, .block a b clean ha hc⟩
          · have e : scan ('/' :: d :: r) ⟨st, cur, false, false, false⟩ = scan (d :: r) ⟨st, cur ++ ['/'], false, false, false⟩ := by
              have e1 : (d == '/') = false := by simpa using hd
              have e2 : (d == '*') = false := by simpa using hd'
              rw [scan.eq_def]
              simp [e1, e2]
            rw [e] at h1 h2 h3
            obtain ⟨clean, hc⟩ := ih (d :: r) (by rw [List.length_cons]; omega) _ _ h1 h2 h3
            obtain ⟨clean', rfl⟩ : ∃ c', clean = d :: c' := by
              cases hc with
              | char _ _ clean _ _ _ => exact ⟨_, rfl⟩
              | slash => exact absurd rfl hd
              | string s raw clean _ _ => exact ⟨_, rfl⟩
              | line => exact absurd rfl hd
              | lastLine => exact absurd rfl hd
              | block => exact absurd rfl hd
            exact ⟨_, .slash d r clean' hd hd' hc⟩
      · by_cases hsc : c = ';'
        · subst hsc
          rw [scan_semicolon] at h1 h2 h3
          obtain ⟨clean, hc⟩ := ih r (by omega) _ _ h1 h2 h3
          exact ⟨_, .char _ r clean hq hs hc⟩
        · rw [scan_plain_char ⟨hsc, hq, hs⟩] at h1 h2 h3
          obtain ⟨clean, hc⟩ := ih r (by omega) _ _ h1 h2 h3
          exact ⟨_, .char _ r clean hq hs hc⟩

/-! ## statements -/

theorem sealed_append {s t : Text} (hs : Sealed s) (ht : Sealed t) : Sealed (s ++ t) := by
  induction hs with
  | nil => exact ht
  | char c s h1 h2 _ ih => exact .char c _ h1 h2 ih
  | string u s h _ ih =>
    have := Sealed.string u _ h ih
    rw [List.cons_append, List.append_assoc]
    exact this

/-- `chop` outside and inside of a string -/
theorem program_of_chop (clean : Text) : ∀ (q : Bool) (cur : Text) (st res : List Text) (fin : Text), chop clean q cur st = (res, fin, false) → trim fin = [] →
    (if q then ∃ a u, cur = a ++ '"' :: u ∧ Sealed a ∧ '"' ∉ u else Sealed cur) →
    ∃ stmts, res = st ++ stmts ∧ ProgramOf (fun a s => a = s ∧ Trimmed s) stmts (cur ++ clean) := by
  induction clean with
  | nil =>
    intro q cur st res fin h hf hq
    rw [chop] at h
    cases h
    refine ⟨[], by simp, ?_⟩
    rw [List.append_nil]
    exact .nil _ (trim_gap hf)
  | cons c clean ih =>
    intro q cur st res fin h hf hq
    rw [chop] at h
    by_cases hc : c = '"'
    · subst hc
      simp only [beq_self_eq_true, if_true] at h
      rw [show ('"' == ';') = false from rfl, Bool.and_false] at h
      simp only [Bool.false_eq_true, if_false] at h
      have e : cur ++ '"' :: clean = (cur ++ ['"']) ++ clean := by simp
      rw [e]
      refine ih _ _ _ _ _ h hf ?_
      cases q with
      | false => exact ⟨cur, [], rfl, hq, by simp⟩
      | true =>
        obtain ⟨a, u, rfl, ha, hu⟩ := hq
        have := sealed_append ha (Sealed.string u [] hu .nil)
        simpa using this
    · rw [show (c == '"') = false by simpa using hc] at h
      simp only [Bool.false_eq_true, if_false] at h
      by_cases hs : (!q && c == ';') = true
      · rw [if_pos hs] at h
        rw [Bool.and_eq_true, Bool.not_eq_true', beq_iff_eq] at hs
        obtain ⟨rfl, rfl⟩ := hs
        obtain ⟨stmts, e, hp⟩ := ih _ _ _ _ _ h hf .nil
        rw [List.nil_append] at hp
        by_cases ht : trim cur = []
        · rw [ht] at e
          exact ⟨stmts, e, .empty _ _ _ (trim_gap ht) hp⟩
        · rw [if_neg (by simpa using ht)] at e
          obtain ⟨g, g', hg, hg', ec⟩ := trim_split cur
          refine ⟨trim cur :: stmts, by rw [e]; simp, ?_⟩
          have hsl : Sealed (trim cur) := by
            -- white space is no quotation mark
            have drop : ∀ (g s : Text), Gap g → Sealed (g ++ s) → Sealed s := by
              intro g s hg h
              induction g with
              | nil => exact h
              | cons d g ihg =>
                have hd := gap_chars hg d List.mem_cons_self
                rw [List.cons_append] at h
                generalize e : d :: (g ++ s) = w at h
                cases h with
                | nil => cases e
                | char _ _ _ _ h =>
                  injection e with _ e2
                  rw [← e2] at h
                  exact ihg (fun x hx => hg x (List.mem_cons_of_mem _ hx)) h
                | string =>
                  injection e with e1 _
                  exact absurd e1 hd.2
            have cut : ∀ (w : Text), Sealed w → ∀ (s g : Text), Gap g → w = s ++ g → Sealed s := by
              intro w hw
              induction hw with
              | nil =>
                intro s g _ e
                rw [(List.append_eq_nil_iff.1 e.symm).1]
                exact .nil
              | char d w h1 h2 _ ihw =>
                intro s g hg e
                cases s with
                | nil => exact .nil
                | cons x s =>
                  rw [List.cons_append] at e
                  cases e
                  exact .char _ _ h1 h2 (ihw s g hg rfl)
              | string u w hu hw' ihw =>
                intro s g hg e
                cases s with
                | nil => exact .nil
                | cons x s =>
                  rw [List.cons_append] at e
                  injection e with e1 e2
                  subst e1
                  rcases List.append_eq_append_iff.1 e2 with ⟨m, e3, e4⟩ | ⟨m, e3, e4⟩
                  · cases m with
                    | nil =>
                      rw [List.nil_append] at e4
                      exact absurd rfl (gap_chars hg '"' (by rw [← e4]; simp)).2
                    | cons y m =>
                      rw [List.cons_append] at e4
                      injection e4 with e5 e6
                      subst e5
                      rw [e3]
                      exact .string u m hu (ihw m g hg e6)
                  · exact absurd rfl (gap_chars hg '"' (by rw [e4]; simp)).2
            rw [ec] at hq
            exact cut _ (drop _ _ hg hq) _ _ hg' rfl
          have := ProgramOf.cons (P := fun a s => a = s ∧ Trimmed s) (trim cur) stmts g (trim cur) g' clean hg hg' hsl ⟨rfl, trimmed_trim cur⟩ hp
          rw [← ec] at this
          exact this
      · rw [if_neg hs] at h
        have e : cur ++ c :: clean = (cur ++ [c]) ++ clean := by simp
        rw [e]
        refine ih _ _ _ _ _ h hf ?_
        cases q with
        | false =>
          have hsc : c ≠ ';' := fun e => hs (by rw [e]; rfl)
          exact sealed_append hq (.char c [] hc hsc .nil)
        | true =>
          obtain ⟨a, u, rfl, ha, hu⟩ := hq
          refine ⟨a, u ++ [c], by simp, ha, ?_⟩
          rw [List.mem_append, List.mem_singleton]
          rintro (h | h)
          · exact hu h
          · exact hc h.symm

theorem split_inv {raw : Text} {stmts : List Text} (h : splitStatements raw = .ok stmts) :
    ∃ clean, Commented raw clean ∧ ProgramOf (fun a s => a = s ∧ Trimmed s) stmts clean := by
  unfold splitStatements at h
  dsimp only at h
  split at h
  · cases h
  rename_i h1
  split at h
  · cases h
  rename_i h2
  split at h
  · cases h
  rename_i h3
  cases h
  have h1' := (Bool.not_eq_true _).mp h1
  have h2' := (Bool.not_eq_true _).mp h2
  have h3' : trim (scan raw ⟨[], [], false, false, false⟩).current = [] := by simpa using h3
  obtain ⟨clean, hc⟩ := commented_of_scan raw.length raw le_rfl [] [] h1' h2' h3'
  refine ⟨clean, hc, ?_⟩
  obtain ⟨b, hb⟩ := scan_commented hc [] []
  rw [hb] at h2' h3' ⊢
  dsimp only at h2' h3' ⊢
  obtain ⟨stmts, e, hp⟩ := program_of_chop clean false [] [] (chop clean false [] []).1 (chop clean false [] []).2.1
    (Prod.ext rfl (Prod.ext rfl h2')) h3' .nil
  rw [List.nil_append] at e hp
  rw [e]
  exact hp

theorem ProgramOf.map {α β : Type} {P : α → Text → Prop} {Q : β → Text → Prop} {l : List α} {s : Text} (h : ProgramOf P l s) :
    ∀ {l' : List β}, List.Forall₂ (fun b a => ∀ s, P a s → Q b s) l' l → ProgramOf Q l' s := by
  induction h with
  | nil g hg =>
    intro l' hf
    cases hf
    exact .nil g hg
  | empty l g t hg _ ih => exact fun hf => .empty _ g t hg (ih hf)
  | cons a l g s g' t hg hg' hs hp _ ih =>
    intro l' hf
    cases hf with
    | cons h1 h2 => exact .cons _ _ g s g' t hg hg' hs (h1 s hp) (ih h2)

end Verif.Proofs
