import Verif.Proofs.QasmLoose

/-! # OpenQASM: angles, lists, integers and operands that have been read -/

namespace Verif.Proofs
open Verif Verif.Spec Verif.Model

/-! ## angles -/

theorem consume_inv {c : Char} {s s' : Text} (h : consume c s = some s') : ∃ g, Gap g ∧ s = g ++ c :: s' := by
  obtain ⟨g, hg, e⟩ := skip_split s
  unfold consume at h
  split at h
  · rename_i d t e'
    split at h
    · rename_i hd
      cases h
      rw [beq_iff_eq] at hd
      subst hd
      exact ⟨g, hg, by rw [e']  at e; exact e⟩
    · cases h
  · cases h

theorem reads_gap_right {f : Text → ℝ × Nat} {p : Level} {x : ℝ} {s g rest : Text} (hg : Gap g) (h : AngleReads f p x s (g ++ rest)) :
    AngleReads f p x (s ++ g) rest := AngleReads.gaps p x [] s g rest gap_nil hg h

theorem reads_gap_left {f : Text → ℝ × Nat} {p : Level} {x : ℝ} {s g rest : Text} (hg : Gap g) (h : AngleReads f p x s rest) :
    AngleReads f p x (g ++ s) rest := by
  have := AngleReads.gaps p x g s [] rest hg gap_nil h
  rw [List.append_nil] at this
  exact this

theorem identifier_inv {f : Text → ℝ × Nat} {s s' : Text} {x : ℝ} (h : parseIdentifier s = .ok (x, s')) :
    ∃ t, s = t ++ s' ∧ AngleReads f .atom x t s' := by
  unfold parseIdentifier at h
  split at h
  · rename_i e
    cases h
    refine ⟨['p', 'i'], ?_, .pi _ ?_⟩
    · conv_lhs => rw [← List.takeWhile_append_dropWhile (p := isWord) (l := s), e]
    · refine apart_of fun c hc => ?_
      have := List.head?_dropWhile_not isWord s
      rw [hc] at this
      simpa using this
  · cases h

theorem number_inv {lib : Libc} (hlen : ∀ s, (lib.strtod s).2 ≤ s.length) {c : Char} {s s' : Text} {x : ℝ} (hc : (c.isAlpha || c == '_') = false)
    (hp : c ≠ '(') (hb : isBlank c = false) (h : parseNumber lib (c :: s) = .ok (x, s')) : ∃ t, c :: s = t ++ s' ∧ AngleReads lib.strtod .atom x t s' := by
  unfold parseNumber at h
  split at h
  · cases h
  rename_i hn
  cases h
  have hl := hlen (c :: s)
  obtain ⟨n, en⟩ := Nat.exists_eq_succ_of_ne_zero hn
  rw [List.length_cons] at hl
  rw [Bool.or_eq_false_iff] at hc
  have hlt : (s.take n).length = n := by rw [List.length_take]; omega
  refine ⟨c :: s.take n, ?_, ?_⟩
  · rw [en, List.drop_succ_cons, List.cons_append, List.take_append_drop]
  · refine .number c _ _ _ hc.1 (by simpa using hc.2) hp ?_ ?_
    · intro hh
      rw [isBlank_gap.2 hh] at hb
      cases hb
    · rw [en, List.drop_succ_cons, List.take_append_drop, hlt]
      exact Prod.ext rfl en

/-- what the functions of the parser have consumed -/
theorem angle_inv {lib : Libc} (hlen : ∀ s, (lib.strtod s).2 ≤ s.length) (k : Nat) : ∀ (s s' : Text) (x : ℝ),
    (parseAddSub lib k s = .ok (x, s') → ∃ t, s = t ++ s' ∧ AngleReads lib.strtod .sum x t s') ∧
    (∀ v t0, addSubLoop lib k v s = .ok (x, s') → AngleReads lib.strtod .sum v t0 s → ∃ t, s = t ++ s' ∧ AngleReads lib.strtod .sum x (t0 ++ t) s') ∧
    (parseMulDiv lib k s = .ok (x, s') → ∃ t, s = t ++ s' ∧ AngleReads lib.strtod .product x t s') ∧
    (∀ v t0, mulDivLoop lib k v s = .ok (x, s') → AngleReads lib.strtod .product v t0 s → ∃ t, s = t ++ s' ∧ AngleReads lib.strtod .product x (t0 ++ t) s') ∧
    (parseUnary lib k s = .ok (x, s') → ∃ t, s = t ++ s' ∧ AngleReads lib.strtod .signed x t s') ∧
    (parsePrimary lib k s = .ok (x, s') → ∃ t, s = t ++ s' ∧ AngleReads lib.strtod .atom x t s') := by
  induction k with
  | zero =>
    intro s s' x
    refine ⟨?_, ?_, ?_, ?_, ?_, ?_⟩
    · intro h; rw [parseAddSub] at h; cases h
    · intro _ _ h; rw [addSubLoop] at h; cases h
    · intro h; rw [parseMulDiv] at h; cases h
    · intro _ _ h; rw [mulDivLoop] at h; cases h
    · intro h; rw [parseUnary] at h; cases h
    · intro h; rw [parsePrimary] at h; cases h
  | succ k ih =>
    intro s s' x
    refine ⟨?_, ?_, ?_, ?_, ?_, ?_⟩
    · intro h
      rw [parseAddSub] at h
      obtain ⟨⟨v, s1⟩, h1, h2⟩ := bind_ok h
      obtain ⟨t1, rfl, r1⟩ := (ih _ _ _).2.2.1 h1
      obtain ⟨t2, rfl, r2⟩ := (ih _ _ _).2.1 _ t1 h2 (.sum _ _ _ r1)
      exact ⟨t1 ++ t2, by simp, r2⟩
    · intro v t0 h r0
      rw [addSubLoop] at h
      split at h
      · rename_i s1 hc
        obtain ⟨g, hg, rfl⟩ := consume_inv hc
        obtain ⟨⟨w, s2⟩, h1, h2⟩ := bind_ok h
        obtain ⟨t1, rfl, r1⟩ := (ih _ _ _).2.2.1 h1
        have r := AngleReads.add _ _ _ _ _ (reads_gap_right hg r0) r1
        obtain ⟨t2, rfl, r2⟩ := (ih _ _ _).2.1 _ _ h2 r
        exact ⟨g ++ '+' :: (t1 ++ t2), by simp, by simpa using r2⟩
      · split at h
        · rename_i s1 hc
          obtain ⟨g, hg, rfl⟩ := consume_inv hc
          obtain ⟨⟨w, s2⟩, h1, h2⟩ := bind_ok h
          obtain ⟨t1, rfl, r1⟩ := (ih _ _ _).2.2.1 h1
          have r := AngleReads.sub _ _ _ _ _ (reads_gap_right hg r0) r1
          rw [sub_eq_add_neg] at r
          obtain ⟨t2, rfl, r2⟩ := (ih _ _ _).2.1 _ _ h2 r
          exact ⟨g ++ '-' :: (t1 ++ t2), by simp, by simpa using r2⟩
        · cases h
          obtain ⟨g, hg, e⟩ := skip_split s
          refine ⟨g, e, reads_gap_right hg ?_⟩
          rw [← e]
          exact r0
    · intro h
      rw [parseMulDiv] at h
      obtain ⟨⟨v, s1⟩, h1, h2⟩ := bind_ok h
      obtain ⟨t1, rfl, r1⟩ := (ih _ _ _).2.2.2.2.1 h1
      obtain ⟨t2, rfl, r2⟩ := (ih _ _ _).2.2.2.1 _ t1 h2 (.product _ _ _ r1)
      exact ⟨t1 ++ t2, by simp, r2⟩
    · intro v t0 h r0
      rw [mulDivLoop] at h
      split at h
      · rename_i s1 hc
        obtain ⟨g, hg, rfl⟩ := consume_inv hc
        obtain ⟨⟨w, s2⟩, h1, h2⟩ := bind_ok h
        obtain ⟨t1, rfl, r1⟩ := (ih _ _ _).2.2.2.2.1 h1
        have r := AngleReads.mul _ _ _ _ _ (reads_gap_right hg r0) r1
        obtain ⟨t2, rfl, r2⟩ := (ih _ _ _).2.2.2.1 _ _ h2 r
        exact ⟨g ++ '*' :: (t1 ++ t2), by simp, by simpa using r2⟩
      · split at h
        · rename_i s1 hc
          obtain ⟨g, hg, rfl⟩ := consume_inv hc
          obtain ⟨⟨w, s2⟩, h1, h2⟩ := bind_ok h
          obtain ⟨t1, rfl, r1⟩ := (ih _ _ _).2.2.2.2.1 h1
          dsimp only at h2
          split at h2
          · cases h2
          rename_i hw
          have r := AngleReads.div _ _ _ _ _ (reads_gap_right hg r0) r1 hw
          obtain ⟨t2, rfl, r2⟩ := (ih _ _ _).2.2.2.1 _ _ h2 r
          exact ⟨g ++ '/' :: (t1 ++ t2), by simp, by simpa using r2⟩
        · cases h
          obtain ⟨g, hg, e⟩ := skip_split s
          refine ⟨g, e, reads_gap_right hg ?_⟩
          rw [← e]
          exact r0
    · intro h
      rw [parseUnary] at h
      split at h
      · rename_i s1 hc
        obtain ⟨g, hg, rfl⟩ := consume_inv hc
        obtain ⟨t, rfl, r⟩ := (ih _ _ _).2.2.2.2.1 h
        exact ⟨g ++ '+' :: t, by simp, reads_gap_left hg (.plus _ _ _ r)⟩
      · split at h
        · rename_i s1 hc
          obtain ⟨g, hg, rfl⟩ := consume_inv hc
          obtain ⟨⟨w, s2⟩, h1, h2⟩ := bind_ok h
          cases h2
          obtain ⟨t, rfl, r⟩ := (ih _ _ _).2.2.2.2.1 h1
          exact ⟨g ++ '-' :: t, by simp, reads_gap_left hg (.minus _ _ _ r)⟩
        · obtain ⟨t, e, r⟩ := (ih _ _ _).2.2.2.2.2 h
          exact ⟨t, e, .signed _ _ _ r⟩
    · intro h
      rw [parsePrimary] at h
      split at h
      · rename_i s1 hc
        obtain ⟨g, hg, rfl⟩ := consume_inv hc
        obtain ⟨⟨w, s2⟩, h1, h2⟩ := bind_ok h
        dsimp only at h2
        split at h2
        · cases h2
        rename_i s3 hc2
        cases h2
        obtain ⟨t, rfl, r⟩ := (ih _ _ _).1 h1
        obtain ⟨g2, hg2, rfl⟩ := consume_inv hc2
        refine ⟨g ++ '(' :: ((t ++ g2) ++ [')']), by simp, reads_gap_left hg (.parens _ _ _ (reads_gap_right hg2 r))⟩
      · rename_i hnone
        obtain ⟨g, hg, e⟩ := skip_split s
        split at h
        · cases h
        rename_i c cs es
        have hb := (skip_mem es).2
        have hp : c ≠ '(' := by
          intro ec
          unfold consume at hnone
          rw [es, ec] at hnone
          simp at hnone
        rw [es] at e
        split at h
        · obtain ⟨t, et, r⟩ := identifier_inv (f := lib.strtod) h
          exact ⟨g ++ t, by rw [e, et]; simp, reads_gap_left hg r⟩
        · rename_i hw
          obtain ⟨t, et, r⟩ := number_inv hlen ((Bool.not_eq_true _).mp hw) hp hb h
          exact ⟨g ++ t, by rw [e, et]; simp, reads_gap_left hg r⟩

theorem parseAngle_inv {lib : Libc} (hlen : ∀ s, (lib.strtod s).2 ≤ s.length) {s : Text} {x : ℝ} (h : parseAngle lib s = .ok x) :
    AngleReads lib.strtod .sum x s [] := by
  unfold parseAngle at h
  obtain ⟨⟨v, s1⟩, h1, h2⟩ := bind_ok h
  dsimp only at h2
  split at h2
  · rename_i he
    cases h2
    obtain ⟨t, e, r⟩ := (angle_inv hlen _ _ _ _).1 h1
    obtain ⟨g, hg, e2⟩ := skip_split s1
    rw [List.isEmpty_iff.1 he, List.append_nil] at e2
    subst e2
    rw [e]
    exact reads_gap_right hg (by rw [List.append_nil]; exact r)
  · cases h2

/-! ## lists -/

theorem commaLoop_inv (s : Text) : ∀ (d : Nat) (cur : Text) (parts res : List Text), commaLoop s d cur parts = .ok res →
    ∃ (raws : List Text) (last : Text), cur ++ s = (raws.map (· ++ [','])).flatten ++ last ∧
      res = parts ++ (raws.map trim ++ if last = [] then [] else [trim last]) := by
  induction s with
  | nil =>
    intro d cur parts res h
    rw [commaLoop] at h
    split at h
    · cases h
    cases h
    refine ⟨[], cur, by simp, ?_⟩
    cases cur <;> simp
  | cons c s ih =>
    intro d cur parts res h
    have next : ∀ {d'}, commaLoop s d' (cur ++ [c]) parts = .ok res → ∃ (raws : List Text) (last : Text),
        cur ++ c :: s = (raws.map (· ++ [','])).flatten ++ last ∧ res = parts ++ (raws.map trim ++ if last = [] then [] else [trim last]) := by
      intro d' h
      obtain ⟨raws, last, e, er⟩ := ih _ _ _ _ h
      exact ⟨raws, last, by rw [← e]; simp, er⟩
    rw [commaLoop.eq_def] at h
    dsimp only at h
    split at h
    · exact next h
    split at h
    · split at h
      · cases h
      · exact next h
    split at h
    · rename_i hc
      rw [Bool.and_eq_true, beq_iff_eq] at hc
      obtain ⟨rfl, -⟩ := hc
      obtain ⟨raws, last, e, er⟩ := ih _ _ _ _ h
      refine ⟨cur :: raws, last, ?_, ?_⟩
      · rw [List.nil_append] at e
        rw [e]
        simp
      · rw [er]
        simp
    · exact next h

theorem mapM_forall₂ {α β : Type} {f : α → Res β} {l : List α} : ∀ {vs : List β}, l.mapM f = .ok vs → List.Forall₂ (fun v a => f a = .ok v) vs l := by
  induction l with
  | nil =>
    intro vs h
    cases h
    exact .nil
  | cons a l ih =>
    intro vs h
    rw [List.mapM_cons] at h
    obtain ⟨b, h1, h2⟩ := bind_ok h
    obtain ⟨bs, h3, h4⟩ := bind_ok h2
    cases h4
    exact .cons h1 (ih h3)

theorem items_inv {α : Type} {P : α → Text → Prop} (raws : List Text) : ∀ (last : Text) (vals : List α),
    raws ≠ [] ∨ last ≠ [] → List.Forall₂ (fun a s => trim s = s → P a s) vals (raws.map trim ++ if last = [] then [] else [trim last]) →
    LooseItems P vals ((raws.map (· ++ [','])).flatten ++ last) := by
  induction raws with
  | nil =>
    intro last vals hne h
    have hl : last ≠ [] := hne.resolve_left (by simp)
    rw [if_neg hl, List.map_nil, List.nil_append] at h
    cases h with
    | cons h1 h2 =>
      cases h2
      obtain ⟨g, g', hg, hg', e⟩ := trim_split last
      have := LooseItems.one (P := P) _ g (trim last) g' hg hg' (h1 (trim_trim _))
      rw [← e] at this
      simpa using this
  | cons r raws ih =>
    intro last vals _ h
    rw [List.map_cons, List.cons_append] at h
    cases h with
    | cons h1 h2 =>
    obtain ⟨g, g', hg, hg', e⟩ := trim_split r
    by_cases hlast : raws = [] ∧ last = []
    · obtain ⟨rfl, rfl⟩ := hlast
      cases h2
      have := LooseItems.last (P := P) _ g (trim r) g' hg hg' (h1 (trim_trim _))
      rw [← e] at this
      simpa using this
    · have := LooseItems.cons (P := P) _ _ g (trim r) g' _ hg hg' (h1 (trim_trim _)) (ih last _ (by
        by_contra hh
        rw [not_or, not_not, not_not] at hh
        exact hlast hh) h2)
      rw [← e] at this
      simpa using this

theorem list_inv {α : Type} {P : α → Text → Prop} {s : Text} {parts : List Text} {vals : List α}
    (h : splitCommaList s = .ok parts) (hm : List.Forall₂ (fun a s => trim s = s → P a s) vals parts) : LooseList P vals s := by
  unfold splitCommaList at h
  obtain ⟨res, h1, h2⟩ := bind_ok h
  cases h2
  obtain ⟨raws, last, e, er⟩ := commaLoop_inv _ _ _ _ _ h1
  rw [List.nil_append] at e er
  by_cases hz : raws = [] ∧ last = []
  · obtain ⟨rfl, rfl⟩ := hz
    subst er
    cases hm
    rw [e]
    exact .none [] gap_nil
  · by_cases hb : res = [[]]
    · rw [if_pos (by simpa using hb)] at hm
      cases hm
      rw [hb] at er
      rw [e]
      cases raws with
      | nil =>
        by_cases hl : last = []
        · exact absurd ⟨rfl, hl⟩ hz
        · rw [if_neg hl] at er
          simp only [List.map_nil, List.nil_append, List.cons.injEq, and_true] at er
          exact .none _ (trim_gap er.symm)
      | cons r raws =>
        rw [List.map_cons, List.cons_append] at er
        injection er with e1 e2
        have e3 := List.append_eq_nil_iff.1 e2.symm
        have e4 : raws = [] := by simpa using e3.1
        have e5 : last = [] := by
          by_contra hl
          rw [if_neg hl] at e3
          cases e3.2
        subst e4 e5
        have := LooseList.comma (P := P) r (trim_gap e1.symm)
        simpa using this
    · rw [if_neg (by simpa using hb), er] at hm
      rw [e]
      refine .items _ _ (items_inv raws last vals ?_ hm)
      by_contra hh
      rw [not_or, not_not, not_not] at hh
      exact hz hh

/-- white space in front of a list -/
theorem list_gap {α : Type} {P : α → Text → Prop} {l : List α} {s g : Text} (hg : Gap g) (h : LooseList P l s) : LooseList P l (g ++ s) := by
  cases h with
  | none _ h => exact .none _ (gap_append hg h)
  | comma g' h =>
    rw [← List.append_assoc]
    exact .comma _ (gap_append hg h)
  | items _ _ h =>
    refine .items _ _ ?_
    cases h with
    | one a g1 s g2 h1 h2 h3 =>
      rw [← List.append_assoc]
      exact .one a _ s g2 (gap_append hg h1) h2 h3
    | last a g1 s g2 h1 h2 h3 =>
      have := LooseItems.last (P := P) a (g ++ g1) s g2 (gap_append hg h1) h2 h3
      simpa using this
    | cons a l g1 s g2 t h1 h2 h3 h4 =>
      have := LooseItems.cons (P := P) a l (g ++ g1) s g2 t (gap_append hg h1) h2 h3 h4
      simpa using this

/-! ## integers and operands -/

theorem strtoull_inv {s s' : Text} {v : Nat} (h : strtoull s = some (v, s')) : ∃ n sign ds, sign ∈ [[], ['+'], ['-']] ∧ Digits n ds ∧
    v = clamp64 (sign == ['-']) n ∧ s = sign ++ (ds ++ s') := by
  unfold strtoull at h
  split at h
  rename_i neg t e
  dsimp only at h
  split at h
  · cases h
  rename_i hne
  cases h
  have hd : Digits (digitsValue (t.takeWhile Char.isDigit)) (t.takeWhile Char.isDigit) :=
    ⟨by simpa using hne, fun c hc => mem_takeWhile_pos hc, natOfDigits_digitsValue _⟩
  split at e
  · cases e
    refine ⟨_, ['-'], _, by simp, hd, ?_, ?_⟩
    · unfold clamp64
      simp
    · rw [List.takeWhile_append_dropWhile]
      rfl
  · cases e
    refine ⟨_, ['+'], _, by simp, hd, ?_, ?_⟩
    · unfold clamp64
      simp
    · rw [List.takeWhile_append_dropWhile]
      rfl
  · cases e
    refine ⟨_, [], _, by simp, hd, ?_, ?_⟩
    · unfold clamp64
      simp
    · rw [List.takeWhile_append_dropWhile]
      rfl

theorem wholeInteger_inv {s : Text} {v : Nat} (h : wholeInteger s = some v) : IntText v s := by
  unfold wholeInteger at h
  split at h
  · cases h
  · rename_i v' e
    cases h
    obtain ⟨n, sign, ds, h1, h2, rfl, rfl⟩ := strtoull_inv e
    exact .mk n sign ds [] h1 h2 (by simp)
  · rename_i v' c rest e
    split at h
    · rename_i hc
      cases h
      obtain ⟨n, sign, ds, h1, h2, rfl, rfl⟩ := strtoull_inv e
      exact .mk n sign ds _ h1 h2 (by simpa using hc)
    · cases h

theorem intText_lt {v : Nat} {s : Text} (h : IntText v s) : v < 2 ^ 64 := by
  obtain ⟨n, sign, ds, rest, h1, h2, h3⟩ := h
  unfold clamp64
  split
  · norm_num
  · split
    · exact Nat.mod_lt _ (by norm_num)
    · omega

theorem findIdx_split {d : Char} {s : Text} (h : s.findIdx (· == d) ≠ s.length) :
    s = s.take (s.findIdx (· == d)) ++ d :: s.drop (s.findIdx (· == d) + 1) ∧ d ∉ s.take (s.findIdx (· == d)) := by
  have hlt : s.findIdx (· == d) < s.length := lt_of_le_of_ne List.findIdx_le_length h
  constructor
  · have e : s[s.findIdx (· == d)] = d := by simpa using List.findIdx_getElem (w := hlt)
    conv_lhs => rw [← List.take_append_drop (s.findIdx (· == d)) s, List.drop_eq_getElem_cons hlt, e]
  · intro hm
    obtain ⟨i, hi, e⟩ := List.mem_iff_getElem.1 hm
    rw [List.length_take] at hi
    have := List.not_of_lt_findIdx (p := (· == d)) (xs := s) (i := i) (by omega)
    rw [List.getElem_take] at e
    rw [e] at this
    simp at this

theorem bracketed_inv {op a b : Text} (h : bracketed op = some (a, b)) : ∃ A B, op = A ++ '[' :: (B ++ [']']) ∧ '[' ∉ A ∧ ']' ∉ A ∧ ']' ∉ B ∧
    a = trim A ∧ b = trim B := by
  unfold bracketed at h
  dsimp only at h
  split at h
  · cases h
  rename_i hc
  rw [not_or, not_or, not_or, not_not] at hc
  obtain ⟨h1, h2, h3, h4⟩ := hc
  obtain ⟨e1, n1⟩ := findIdx_split h1
  obtain ⟨e2, n2⟩ := findIdx_split h2
  generalize op.findIdx (· == '[') = lb at *
  generalize op.findIdx (· == ']') = rb at *
  cases h
  rw [List.drop_eq_nil_of_le (show op.length ≤ rb + 1 by omega)] at e2
  have hne : lb ≠ rb := by
    intro e
    rw [e] at e1
    have := congrArg (fun l => l[rb]?) (e1.symm.trans e2)
    rw [List.getElem?_append_right (by rw [List.length_take]; omega), List.getElem?_append_right (by rw [List.length_take]; omega), List.length_take,
      Nat.min_eq_left (by omega), Nat.sub_self] at this
    simp at this
  have hlt : lb < rb := by omega
  have ed : op.drop (lb + 1) = (op.drop (lb + 1)).take (rb - lb - 1) ++ [']'] := by
    conv_lhs => rw [e2, List.drop_append, List.length_take, Nat.min_eq_left (show rb ≤ op.length by omega), show lb + 1 - rb = 0 by omega, List.drop_zero]
    congr 1
    rw [List.drop_take]
    congr 1
  refine ⟨op.take lb, (op.drop (lb + 1)).take (rb - lb - 1), ?_, n1, ?_, ?_, rfl, rfl⟩
  · rw [← ed]
    exact e1
  · intro hm
    refine n2 ?_
    have : op.take lb <+: op.take rb := List.take_prefix_take_left (by omega)
    exact this.subset hm
  · intro hm
    refine n2 ?_
    rw [show (op.drop (lb + 1)).take (rb - lb - 1) = (op.take rb).drop (lb + 1) by rw [List.drop_take]; congr 1] at hm
    exact List.mem_of_mem_drop hm

/-- the brackets and what is around and between them -/
theorem element_inv {op a b : Text} {i : Nat} (h : bracketed op = some (a, b)) (hi : wholeInteger b = some i) :
    ∃ g, Gap g ∧ ∃ s, op = g ++ s ∧ LooseElement (a, i) s := by
  obtain ⟨A, B, rfl, h1, h2, h3, rfl, rfl⟩ := bracketed_inv h
  obtain ⟨g, g', hg, hg', e⟩ := trim_split A
  obtain ⟨k, k', hk, hk', e'⟩ := trim_split B
  refine ⟨g, hg, trim A ++ g' ++ '[' :: (B ++ [']']), ?_, ?_⟩
  · conv_lhs => rw [e]
    simp
  · have := LooseElement.mk (trim A) i g' k k' (trim B) (tight_trim A) (fun h => h1 (by rw [e]; simp [h])) (fun h => h2 (by rw [e]; simp [h])) hg' hk hk'
      (wholeInteger_inv hi) (fun h => h3 (by rw [e']; simp [h]))
    rw [← e'] at this
    exact this

theorem element_inv_trim {op a b : Text} {i : Nat} (h : bracketed (trim op) = some (a, b)) (hi : wholeInteger b = some i) : LooseElement (a, i) (trim op) := by
  obtain ⟨g, hg, s, e, hs⟩ := element_inv h hi
  cases g with
  | nil =>
    rw [e]
    exact hs
  | cons c g =>
    have := (trimmed_trim op).1 c (by rw [e]; rfl)
    rw [gap_blank hg c List.mem_cons_self] at this
    cases this

theorem indexed_inv {op : Text} {regs : Registers} {q : Nat} (h : parseIndexedRegister op regs = .ok q) : ∃ name i, LooseElement (name, i) (trim op) ∧
    ∀ {total}, Consecutive regs total → totalSize (declsOf regs) < 2 ^ 64 → flatIndex (declsOf regs) name i = some q := by
  unfold parseIndexedRegister at h
  split at h
  · cases h
  rename_i name ix hb
  split at h
  · cases h
  rename_i r hl
  split at h
  · cases h
  rename_i i hi
  split at h
  · cases h
  rename_i hlt
  cases h
  refine ⟨name, i, element_inv_trim hb hi, ?_⟩
  intro total hc ht
  obtain ⟨b, a, e, ho, hbf⟩ := hc.1 name r hl
  have hf := flatIndex_before (after := a) (r := r) hbf i
  rw [← e] at hf
  have hsum : totalSize (declsOf b) + r.size ≤ totalSize (declsOf regs) := by
    rw [e]
    unfold declsOf
    rw [List.map_append, totalSize_append, List.map_cons]
    show _ ≤ _ + (r.size + _)
    omega
  rw [hf, if_pos (by omega), ho, Nat.mod_add_mod, Nat.mod_eq_of_lt (by omega)]

theorem measOperand_inv {op : Text} {regs : Registers} {x : QReg} (h : parseMeasureOperand op regs = .ok x) : ∃ o : QOperand, LooseOperand o (trim op) ∧
    ∀ {total}, Consecutive regs total → totalSize (declsOf regs) < 2 ^ 64 →
      o.elements (declsOf regs) = some ((List.range x.size).map fun i => (x.offset + i) % 2 ^ 64) := by
  unfold parseMeasureOperand at h
  dsimp only at h
  split at h
  · obtain ⟨q, h1, h2⟩ := bind_ok h
    cases h2
    obtain ⟨name, i, he, hf⟩ := indexed_inv h1
    rw [trim_trim] at he
    refine ⟨⟨name, some i⟩, .element _ _ _ he, ?_⟩
    intro total hc ht
    have hq := hf hc ht
    unfold QOperand.elements
    dsimp only
    rw [hq]
    have ha : q < 2 ^ 64 := by
      have := flatIndex_lt hq
      omega
    rw [List.range_one, List.map_singleton, Nat.add_zero, Nat.mod_eq_of_lt ha]
    rfl
  · rename_i hany
    split at h
    · cases h
    rename_i r hl
    cases h
    rw [Bool.not_eq_true, List.any_eq_false] at hany
    refine ⟨⟨trim op, none⟩, .whole _ (tight_trim op) (fun h => hany _ h rfl) (fun h => hany _ h rfl), ?_⟩
    intro total hc ht
    obtain ⟨b, a, e, hoff, hbf⟩ := hc.1 _ x hl
    unfold QOperand.elements
    dsimp only
    have h1 : (declsOf regs).lookup (trim op) = some x.size := by
      rw [e]
      unfold declsOf
      rw [List.map_append, List.lookup_append, List.map_cons]
      rw [show (b.map fun p => (p.1, p.2.size)).lookup (trim op) = none from ?_]
      · simp
      · rw [List.lookup_eq_none_iff]
        intro p hp
        obtain ⟨y, hy, rfl⟩ := List.mem_map.1 hp
        simpa using fun e => hbf y hy e.symm
    rw [h1, Option.bind_some]
    have hsum : totalSize (declsOf b) + x.size ≤ totalSize (declsOf regs) := by
      rw [e]
      unfold declsOf
      rw [List.map_append, totalSize_append, List.map_cons]
      show _ ≤ _ + (x.size + _)
      omega
    refine mapM_some fun i hi => ?_
    rw [e, flatIndex_before hbf, if_pos (List.mem_range.1 hi), hoff]
    have := List.mem_range.1 hi
    rw [Nat.mod_eq_of_lt (show totalSize (declsOf b) < 2 ^ 64 by omega), Nat.mod_eq_of_lt (by omega)]

end Verif.Proofs
