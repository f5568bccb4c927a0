import Verif.Model.PauliText
import Verif.Proofs.PauliCtor

/-! # Pauli strings are read back as written -/

namespace Verif.Proofs
open Verif Verif.Spec Verif.Model
attribute [-simp] BitVec.getLsbD_eq_getElem

theorem dropWhile_append_of_all {α} {p : α → Bool} {w r : List α} (h : ∀ c ∈ w, p c = true) :
    (w ++ r).dropWhile p = r.dropWhile p := by
  induction w with
  | nil => rfl
  | cons c w ih =>
    rw [List.cons_append, List.dropWhile_cons_of_pos (h c (by simp))]
    exact ih (fun c hc => h c (by simp [hc]))

theorem takeWhile_append_of_all {α} {p : α → Bool} {w r : List α} (h : ∀ c ∈ w, p c = true) :
    (w ++ r).takeWhile p = w ++ r.takeWhile p := by
  induction w with
  | nil => rfl
  | cons c w ih =>
    rw [List.cons_append, List.takeWhile_cons_of_pos (h c (by simp)), ih (fun c hc => h c (by simp [hc]))]
    rfl

theorem digit_not_special {c : Char} (h : c.isDigit = true) : isSpace c = false ∧ c ≠ '-' ∧ c ≠ '+' := by
  refine ⟨?_, ?_, ?_⟩
  · unfold isSpace
    simp only [Bool.or_eq_false_iff, decide_eq_false_iff_not]
    refine ⟨⟨⟨⟨⟨?_, ?_⟩, ?_⟩, ?_⟩, ?_⟩, ?_⟩ <;> (rintro rfl; revert h; decide)
  · rintro rfl; revert h; decide
  · rintro rfl; revert h; decide

/-- a number written in decimal after white space is read back, stopping at the first character that is no digit -/
theorem readUInt_written {w r : List Char} {q : Nat} (hq : q < 2 ^ 64) (hw : ∀ c ∈ w, isSpace c = true)
    (hr : ∀ c r', r = c :: r' → c.isDigit = false) : readUInt (w ++ (Nat.toDigits 10 q ++ r)) = some (q, r) := by
  have hd : ∀ c ∈ Nat.toDigits 10 q, c.isDigit = true :=
    fun c hc => Nat.isDigit_of_mem_toDigits (by omega) (by omega) hc
  have hne : Nat.toDigits 10 q ≠ [] := Nat.toDigits_ne_nil
  have htr : r.takeWhile Char.isDigit = [] := by
    cases r with
    | nil => rfl
    | cons c r => rw [List.takeWhile_cons_of_neg]; rw [hr c r rfl]; simp
  have hdr : r.dropWhile Char.isDigit = r := by
    cases r with
    | nil => rfl
    | cons c r => rw [List.dropWhile_cons_of_neg]; rw [hr c r rfl]; simp
  have hsk : skipWs (w ++ (Nat.toDigits 10 q ++ r)) = Nat.toDigits 10 q ++ r := by
    unfold skipWs
    rw [dropWhile_append_of_all hw]
    obtain ⟨c, l, hcl⟩ := List.exists_cons_of_ne_nil hne
    rw [hcl, List.cons_append, List.dropWhile_cons_of_neg]
    rw [(digit_not_special (hd c (by rw [hcl]; simp))).1]; simp
  have htake : (Nat.toDigits 10 q ++ r).takeWhile Char.isDigit = Nat.toDigits 10 q := by
    rw [takeWhile_append_of_all hd, htr, List.append_nil]
  have hdrop : (Nat.toDigits 10 q ++ r).dropWhile Char.isDigit = r := by
    rw [dropWhile_append_of_all hd, hdr]
  have hhead : ∀ c l, Nat.toDigits 10 q ++ r = c :: l → c ≠ '-' ∧ c ≠ '+' := by
    intro c l h
    obtain ⟨c', l', hcl⟩ := List.exists_cons_of_ne_nil hne
    rw [hcl] at h
    injection h with h1 h2
    rw [← h1]
    exact (digit_not_special (hd c' (by rw [hcl]; simp))).2
  unfold readUInt
  rw [hsk]
  generalize hs : Nat.toDigits 10 q ++ r = s at htake hdrop hhead
  have hm : readSign s = (false, s) := by
    unfold readSign
    split
    · exact absurd rfl (hhead _ _ rfl).1
    · exact absurd rfl (hhead _ _ rfl).2
    · rfl
  rw [hm]
  dsimp only
  rw [htake, hdrop, if_neg hne, Nat.ofDigitChars_ten_toDigits, if_neg (by omega)]
  simp

/-- one word of a Pauli string: white space, a letter, white space, a number -/
theorem parseLoop_word (p : PauliOp) {w1 w2 r : List Char} {c : Char} {id q : Nat} (hq : q < 2 ^ 64)
    (hw1 : ∀ c ∈ w1, isSpace c = true) (hw2 : ∀ c ∈ w2, isSpace c = true) (hc : pauliIdOfChar c = some id)
    (hr : ∀ c r', r = c :: r' → c.isDigit = false) :
    p.parseLoop (w1 ++ (c :: (w2 ++ (Nat.toDigits 10 q ++ r)))) =
      if id ≠ 0 then (match p.addSingle q id with | .error e => .error e | .ok p => p.parseLoop r)
      else p.parseLoop r := by
  have hsp : isSpace c = false := by
    cases h : isSpace c with
    | false => rfl
    | true =>
      unfold isSpace at h
      simp only [Bool.or_eq_true, decide_eq_true_eq] at h
      rcases h with ((((h | h) | h) | h) | h) | h <;> (subst h; revert hc; simp [pauliIdOfChar])
  have hsk : skipWs (w1 ++ (c :: (w2 ++ (Nat.toDigits 10 q ++ r)))) = c :: (w2 ++ (Nat.toDigits 10 q ++ r)) := by
    unfold skipWs
    rw [dropWhile_append_of_all hw1, List.dropWhile_cons_of_neg (by rw [hsp]; simp)]
  rw [PauliOp.parseLoop]
  split
  · rename_i h; rw [hsk] at h; cases h
  · rename_i c' rest h
    rw [hsk] at h
    injection h with h1 h2
    subst h1; subst h2
    split
    · rename_i h; rw [readUInt_written hq hw2 hr] at h; cases h
    · rename_i q' rest' h
      rw [readUInt_written hq hw2 hr] at h
      simp only [Option.some.injEq, Prod.mk.injEq] at h
      obtain ⟨rfl, rfl⟩ := h
      rw [hc]; rfl

/-- a list of words separated by white space -/
def renderWords : List (Char × Nat) → List Char
  | [] => []
  | [(c, q)] => c :: ([' '] ++ (Nat.toDigits 10 q ++ []))
  | (c, q) :: b :: l => c :: ([' '] ++ (Nat.toDigits 10 q ++ ([' '] ++ renderWords (b :: l))))

theorem parseLoop_nil (p : PauliOp) : p.parseLoop [] = .ok p := by
  rw [PauliOp.parseLoop]
  split
  · rfl
  · rename_i h; simp [skipWs] at h

/-- reading a list of words adds the corresponding factors one after the other -/
theorem parseLoop_render (p : PauliOp) (l : List (Char × Nat × Nat)) (w : List Char)
    (hw : ∀ c ∈ w, isSpace c = true)
    (h : ∀ a ∈ l, pauliIdOfChar a.1 = some a.2.1 ∧ a.2.2 < 2 ^ 64) (hne : l ≠ [] ∨ w = []) :
    p.parseLoop (w ++ renderWords (l.map (fun a => (a.1, a.2.2)))) = p.addAll (l.map (fun a => (a.2.2, a.2.1))) := by
  induction l generalizing p w with
  | nil =>
    rcases hne with h | h
    · exact absurd rfl h
    · subst h; exact parseLoop_nil p
  | cons a l ih =>
    obtain ⟨c, id, q⟩ := a
    obtain ⟨h1, h2⟩ := h _ (List.mem_cons_self ..)
    simp only at h1 h2
    have htail : ∀ a ∈ l, pauliIdOfChar a.1 = some a.2.1 ∧ a.2.2 < 2 ^ 64 := fun a ha => h a (by simp [ha])
    obtain ⟨w', hw', hne', hren, hdig⟩ : ∃ w' : List Char, (∀ c ∈ w', isSpace c = true) ∧ (l ≠ [] ∨ w' = []) ∧
        renderWords (((c, id, q) :: l).map (fun a => (a.1, a.2.2))) =
          c :: ([' '] ++ (Nat.toDigits 10 q ++ (w' ++ renderWords (l.map (fun a => (a.1, a.2.2)))))) ∧
        (∀ c' r', w' ++ renderWords (l.map (fun a => (a.1, a.2.2))) = c' :: r' → c'.isDigit = false) := by
      cases l with
      | nil => exact ⟨[], by simp, .inr rfl, rfl, by simp [renderWords]⟩
      | cons b l =>
        refine ⟨[' '], ?_, .inl (by simp), rfl, ?_⟩
        · intro c hc; simp at hc; subst hc; rfl
        · intro c' r' he
          injection he with he _
          rw [← he]; rfl
    rw [hren, parseLoop_word p h2 hw (by intro c hc; simp at hc; subst hc; rfl) h1 hdig]
    simp only [List.map_cons, PauliOp.addAll]
    by_cases hid : id ≠ 0
    · rw [if_pos hid, if_pos hid]
      cases hadd : p.addSingle q id with
      | error e => rfl
      | ok p' => exact ih p' w' hw' htail hne'
    · rw [if_neg hid, if_neg hid]
      exact ih p w' hw' htail hne'

/-! ## lists reported by an operator -/

/-- the id of the letter on one qubit -/
def idAt (p : PauliOp) (q : Nat) : Nat :=
  if p.x.getLsbD q && p.z.getLsbD q then 2 else if p.x.getLsbD q then 1 else if p.z.getLsbD q then 3 else 0

theorem idList_eq (p : PauliOp) : p.idList = p.targetList.map (idAt p) := by
  unfold PauliOp.idList
  rw [show maskToVector (p.x ||| p.z) = p.targetList from rfl]
  have hmem : ∀ q ∈ p.targetList, p.x.getLsbD q = true ∨ p.z.getLsbD q = true := by
    intro q hq
    unfold PauliOp.targetList at hq
    rwa [(maskToVector_spec _).1, BitVec.getLsbD_or, Bool.or_eq_true] at hq
  revert hmem
  generalize p.targetList = l
  intro hmem
  induction l with
  | nil => rfl
  | cons q l ih =>
    rw [List.flatMap_cons, List.map_cons, ih (fun q hq => hmem q (by simp [hq]))]
    have e : (if ((p.x &&& p.z) >>> q) &&& 1#64 ≠ 0 then [2]
        else if (p.x >>> q) &&& 1#64 ≠ 0 then [1]
        else if (p.z >>> q) &&& 1#64 ≠ 0 then [3] else []) = [idAt p q] := by
      simp only [shr_test, BitVec.getLsbD_and, Bool.and_eq_true]
      unfold idAt
      have := hmem q (by simp)
      cases hx : p.x.getLsbD q <;> cases hz : p.z.getLsbD q <;> simp [hx, hz] at this ⊢
    rw [e]; rfl

theorem idAt_lt (p : PauliOp) (q : Nat) : idAt p q < 4 := by
  unfold idAt; split
  · omega
  · split
    · omega
    · split <;> omega

theorem targets_zip_ids (p : PauliOp) : p.targetList.zip p.idList = p.targetList.map (fun q => (q, idAt p q)) := by
  rw [idList_eq]
  generalize p.targetList = l
  induction l with
  | nil => rfl
  | cons q l ih => simp [ih]

theorem pairsOK_self (p : PauliOp) : PairsOK (p.targetList.map (fun q => (q, idAt p q))) := by
  obtain ⟨h1, h2⟩ := maskToVector_spec (p.x ||| p.z)
  refine ⟨?_, ?_, ?_⟩
  · intro a ha
    rw [List.mem_map] at ha
    obtain ⟨q, -, rfl⟩ := ha
    exact idAt_lt p q
  · intro a ha _
    rw [List.mem_map] at ha
    obtain ⟨q, hq, rfl⟩ := ha
    unfold PauliOp.targetList at hq
    rw [h1] at hq
    by_contra hge
    rw [getLsbD_high _ (by simpa using hge)] at hq; cases hq
  · rw [List.pairwise_map]
    exact h2.imp (fun h => .inr (.inr (Nat.ne_of_lt h)))

/-- the qubit list and id list of an operator rebuild it -/
theorem addAll_self (p : PauliOp) (c : ℂ) :
    PauliOp.addAll ⟨c, 0, 0⟩ (p.targetList.map (fun q => (q, idAt p q))) = .ok ⟨c, p.x, p.z⟩ := by
  obtain ⟨p', hp'⟩ := (addAll_spec ⟨c, 0, 0⟩ _).2.1 (pairsOK_self p) (by intro a _ _; simp)
  obtain ⟨-, k2, -, k4, k5⟩ := (addAll_spec ⟨c, 0, 0⟩ _).1 p' hp'
  rw [hp']
  have hx : ∀ i, p'.x.getLsbD i = p.x.getLsbD i := by
    intro i
    rw [k4, show (0 : U64).getLsbD i = false from BitVec.getLsbD_zero, Bool.eq_iff_iff]
    simp only [Bool.false_or, toStr, List.map_map, List.any_map, List.any_eq_true,
      Function.comp, Bool.and_eq_true, decide_eq_true_eq]
    constructor
    · rintro ⟨q, hq, h1, rfl⟩
      unfold idAt at h1
      revert h1
      cases hxq : p.x.getLsbD q <;> cases hzq : p.z.getLsbD q <;> simp [pauliOfId, hasX]
    · intro hi
      refine ⟨i, ?_, ?_, rfl⟩
      · unfold PauliOp.targetList
        rw [(maskToVector_spec _).1, BitVec.getLsbD_or, hi]; rfl
      · unfold idAt; rw [hi]
        cases p.z.getLsbD i <;> simp [pauliOfId, hasX]
  have hz : ∀ i, p'.z.getLsbD i = p.z.getLsbD i := by
    intro i
    rw [k5, show (0 : U64).getLsbD i = false from BitVec.getLsbD_zero, Bool.eq_iff_iff]
    simp only [Bool.false_or, toStr, List.map_map, List.any_map, List.any_eq_true,
      Function.comp, Bool.and_eq_true, decide_eq_true_eq]
    constructor
    · rintro ⟨q, hq, h1, rfl⟩
      unfold idAt at h1
      revert h1
      cases hxq : p.x.getLsbD q <;> cases hzq : p.z.getLsbD q <;> simp [pauliOfId, hasZ]
    · intro hi
      refine ⟨i, ?_, ?_, rfl⟩
      · unfold PauliOp.targetList
        rw [(maskToVector_spec _).1, BitVec.getLsbD_or, hi]; simp
      · unfold idAt; rw [hi]
        cases p.x.getLsbD i <;> simp [pauliOfId, hasZ]
  obtain ⟨pc, px, pz⟩ := p'
  simp only at k2 hx hz
  rw [k2, show px = p.x from U64.ext (fun i _ => hx i), show pz = p.z from U64.ext (fun i _ => hz i)]

theorem ofLists_self (p : PauliOp) : PauliOp.ofLists p.targetList p.idList p.coef = .ok p := by
  unfold PauliOp.ofLists
  rw [if_neg (by rw [idList_eq]; simp), targets_zip_ids]
  exact addAll_self p p.coef

def charOfId (id : Nat) : Char := match id with
  | 0 => 'I' | 1 => 'X' | 2 => 'Y' | _ => 'Z'

theorem pauliStringLoop_eq (f : Nat → Nat) (hf : ∀ q, f q < 4) (l : List Nat) :
    pauliStringLoop l (l.map f) = .ok (renderWords (l.map (fun q => (charOfId (f q), q)))) := by
  induction l with
  | nil => rfl
  | cons q l ih =>
    rw [List.map_cons, pauliStringLoop, ih]
    have hw : pauliWord (f q) = .ok [charOfId (f q), ' '] := by
      have := hf q
      generalize f q = id at this
      match id, this with
      | 0, _ => rfl
      | 1, _ => rfl
      | 2, _ => rfl
      | 3, _ => rfl
      | n + 4, h => omega
    rw [hw]
    simp only [ok_bind]
    show Except.ok _ = Except.ok _
    congr 1
    cases l with
    | nil => simp [renderWords]
    | cons b l => simp [renderWords]

theorem pauliIdOfChar_charOfId {id : Nat} (h : id < 4) : pauliIdOfChar (charOfId id) = some id := by
  match id, h with
  | 0, _ => rfl
  | 1, _ => rfl
  | 2, _ => rfl
  | 3, _ => rfl
  | n + 4, h => omega

/-- the string printed by an operator is read back as the same operator -/
theorem string_roundTrip (p : PauliOp) : ∃ s, p.getString = .ok s ∧ PauliOp.ofString s p.coef = .ok p := by
  refine ⟨renderWords (p.targetList.map (fun q => (charOfId (idAt p q), q))), ?_, ?_⟩
  · unfold PauliOp.getString
    rw [idList_eq]
    exact pauliStringLoop_eq (idAt p) (idAt_lt p) _
  · unfold PauliOp.ofString
    have h := parseLoop_render ⟨p.coef, 0, 0⟩ (p.targetList.map (fun q => (charOfId (idAt p q), idAt p q, q))) []
      (by simp) (by
        intro a ha
        rw [List.mem_map] at ha
        obtain ⟨q, hq, rfl⟩ := ha
        refine ⟨pauliIdOfChar_charOfId (idAt_lt p q), ?_⟩
        have : q < 64 := by
          unfold PauliOp.targetList at hq
          rw [(maskToVector_spec _).1] at hq
          by_contra hge
          rw [getLsbD_high _ (by omega)] at hq; cases hq
        dsimp only
        omega) (.inr rfl)
    rw [List.nil_append, List.map_map, List.map_map] at h
    have e := addAll_self p p.coef
    rw [← e]
    exact h

theorem error_addSingle {p : PauliOp} {q id : Nat} {e : Fault} (h : p.addSingle q id = .error e) :
    ∃ msg, e = .throw msg := by
  rw [addSingle_eq] at h
  split at h
  · cases h; exact ⟨_, rfl⟩
  · split at h
    · cases h; exact ⟨_, rfl⟩
    · split at h
      · cases h; exact ⟨_, rfl⟩
      · cases h

/-- reading any string ends with an operator or an exception -/
theorem parse_error (p : PauliOp) (s : List Char) {e : Fault} (h : p.parseLoop s = .error e) :
    ∃ msg, e = .throw msg := by
  induction hn : s.length using Nat.strongRecOn generalizing p s with
  | ind n ih =>
    rw [PauliOp.parseLoop] at h
    split at h
    · cases h
    · rename_i c rest hs
      have h1 : (skipWs s).length ≤ s.length := (List.dropWhile_sublist _).length_le
      rw [hs] at h1
      simp at h1
      split at h
      · cases h; exact ⟨_, rfl⟩
      · rename_i q rest' hr
        have h2 := length_readUInt hr
        split at h
        · cases h; exact ⟨_, rfl⟩
        · split at h
          · split at h
            · rename_i e' he
              cases h; exact error_addSingle he
            · exact ih rest'.length (by omega) _ rest' h rfl
          · exact ih rest'.length (by omega) _ rest' h rfl

end Verif.Proofs
