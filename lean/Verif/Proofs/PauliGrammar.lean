import Verif.Proofs.PauliText
import Verif.Spec.PauliText

/-! # The constructor of Pauli operators from text follows the grammar -/

namespace Verif.Proofs
open Verif Verif.Spec Verif.Model
attribute [-simp] BitVec.getLsbD_eq_getElem

theorem isBlank_iff (c : Char) : IsBlank c ↔ isSpace c = true := by
  simp [IsBlank, isSpace, or_assoc]

/-- the number of a letter -/
def idOfPauli : Pauli1 → Nat
  | .I => 0
  | .X => 1
  | .Y => 2
  | .Z => 3

theorem pauliOfId_idOfPauli (P : Pauli1) : pauliOfId (idOfPauli P) = P := by cases P <;> rfl

theorem letter_id (c : Char) : pauliIdOfChar c = (pauliOfLetter c).map idOfPauli := by
  unfold pauliOfLetter
  split <;> (try rfl)
  unfold pauliIdOfChar
  rw [if_neg (by rintro (h | h) <;> contradiction), if_neg (by rintro (h | h) <;> contradiction),
    if_neg (by rintro (h | h) <;> contradiction), if_neg (by rintro (h | h) <;> contradiction)]
  rfl

/-- the number that the code makes of `k` -/
def wrapped (k : Int) : Nat := (k % 2 ^ 64).toNat

theorem takeWhile_mem {α : Type} {p : α → Bool} {l : List α} {c : α} (h : c ∈ l.takeWhile p) : p c = true := by
  induction l with
  | nil => simp at h
  | cons a l ih =>
    by_cases ha : p a = true
    · rw [List.takeWhile_cons_of_pos ha] at h
      rcases List.mem_cons.1 h with h | h
      · rw [h]; exact ha
      · exact ih h
    · rw [List.takeWhile_cons_of_neg ha] at h; simp at h

theorem dropWhile_start {α : Type} {p : α → Bool} {r : List α} (h : ∀ c r', r = c :: r' → p c = false) : r.dropWhile p = r := by
  cases r with
  | nil => rfl
  | cons c r => rw [List.dropWhile_cons_of_neg]; rw [h c r rfl]; simp

theorem takeWhile_start {α : Type} {p : α → Bool} {r : List α} (h : ∀ c r', r = c :: r' → p c = false) : r.takeWhile p = [] := by
  cases r with
  | nil => rfl
  | cons c r => rw [List.takeWhile_cons_of_neg]; rw [h c r rfl]; simp

/-- reading a number -/
theorem readUInt_text {w sign ds r : List Char} {σ : Int → Int} (hw : ∀ c ∈ w, isSpace c = true) (hs : SignText sign σ) (hne : ds ≠ [])
    (hd : ∀ c ∈ ds, c.isDigit = true) (hv : digitsValue ds < 2 ^ 64) (hr : ∀ c r', r = c :: r' → c.isDigit = false) :
    readUInt (w ++ (sign ++ (ds ++ r))) = some (wrapped (σ (digitsValue ds)), r) := by
  have htake : (ds ++ r).takeWhile Char.isDigit = ds := by
    rw [takeWhile_append_of_all hd, takeWhile_start hr, List.append_nil]
  have hdrop : (ds ++ r).dropWhile Char.isDigit = r := by
    rw [dropWhile_append_of_all hd, dropWhile_start hr]
  obtain ⟨d, l, hdl⟩ := List.exists_cons_of_ne_nil hne
  have hdd := digit_not_special (hd d (by rw [hdl]; simp))
  have hvd : Nat.ofDigitChars 10 ds 0 = digitsValue ds := rfl
  have key : ∀ b, readSign (skipWs (w ++ (sign ++ (ds ++ r)))) = (b, ds ++ r) →
      wrapped (σ (digitsValue ds)) = (if b then (2 ^ 64 - digitsValue ds) % 2 ^ 64 else digitsValue ds) →
      readUInt (w ++ (sign ++ (ds ++ r))) = some (wrapped (σ (digitsValue ds)), r) := by
    intro b hb e
    unfold readUInt
    rw [hb]
    dsimp only
    rw [htake, hdrop, if_neg hne, hvd, if_neg (by omega), e]
  have hsk : skipWs (w ++ (sign ++ (ds ++ r))) = (sign ++ (ds ++ r)).dropWhile isSpace := dropWhile_append_of_all hw
  cases hs with
  | none =>
    refine key false ?_ ?_
    · rw [hsk, List.nil_append, hdl, List.cons_append, List.dropWhile_cons_of_neg (by rw [hdd.1]; simp)]
      unfold readSign
      split
      · rename_i h; simp only [List.cons.injEq] at h; exact absurd h.1 hdd.2.1
      · rename_i h; simp only [List.cons.injEq] at h; exact absurd h.1 hdd.2.2
      · rfl
    · simp only [wrapped, id]
      rw [Int.emod_eq_of_lt (by omega) (by omega)]
      simp
  | plus =>
    refine key false ?_ ?_
    · rw [hsk, List.cons_append, List.nil_append, List.dropWhile_cons_of_neg (by decide)]
      rfl
    · simp only [wrapped, id]
      rw [Int.emod_eq_of_lt (by omega) (by omega)]
      simp
  | minus =>
    refine key true ?_ ?_
    · rw [hsk, List.cons_append, List.nil_append, List.dropWhile_cons_of_neg (by decide)]
      rfl
    · simp only [wrapped, if_true]
      omega

/-- what was read as a number -/
theorem readUInt_inv {s r : List Char} {v : Nat} (h : readUInt s = some (v, r)) : ∃ w sign ds σ, s = w ++ (sign ++ (ds ++ r)) ∧
    (∀ c ∈ w, isSpace c = true) ∧ SignText sign σ ∧ ds ≠ [] ∧ (∀ c ∈ ds, c.isDigit = true) ∧ digitsValue ds < 2 ^ 64 ∧
    ∀ c r', r = c :: r' → c.isDigit = false := by
  have hsp : s = s.takeWhile isSpace ++ skipWs s := (List.takeWhile_append_dropWhile ..).symm
  have hall : ∀ c ∈ s.takeWhile isSpace, isSpace c = true := fun c hc => takeWhile_mem hc
  have hsign : ∃ sign σ, SignText sign σ ∧ skipWs s = sign ++ (readSign (skipWs s)).2 := by
    generalize skipWs s = t
    unfold readSign
    split
    · exact ⟨['-'], _, .minus, rfl⟩
    · exact ⟨['+'], _, .plus, rfl⟩
    · exact ⟨[], _, .none, rfl⟩
  obtain ⟨sign, σ, h1, h2⟩ := hsign
  unfold readUInt at h
  dsimp only at h
  generalize hu : (readSign (skipWs s)).2 = u at h h2
  split at h
  · cases h
  · next hne =>
    split at h
    · cases h
    · next hv =>
      simp only [Option.some.injEq, Prod.mk.injEq] at h
      refine ⟨s.takeWhile isSpace, sign, u.takeWhile Char.isDigit, σ, ?_, hall, h1, hne, fun c hc => takeWhile_mem hc, ?_, ?_⟩
      · rw [← h.2, List.takeWhile_append_dropWhile, ← h2]; exact hsp
      · have : Nat.ofDigitChars 10 (u.takeWhile Char.isDigit) 0 = digitsValue (u.takeWhile Char.isDigit) := rfl
        omega
      · intro c r' e
        have := List.head?_dropWhile_not (p := Char.isDigit) (l := u)
        rw [h.2, e] at this
        simpa using this

/-- the calls of `add_single_pauli` for a list of words -/
def wordCalls (ws : List (Pauli1 × Int)) : List (Nat × Nat) := ws.map fun a => (wrapped a.2, idOfPauli a.1)

theorem idOfPauli_eq_zero {P : Pauli1} : idOfPauli P = 0 ↔ P = .I := by cases P <;> simp [idOfPauli]

theorem isSpace_letter {c : Char} {P : Pauli1} (h : pauliOfLetter c = some P) : isSpace c = false := by
  cases hs : isSpace c with
  | false => rfl
  | true =>
    unfold isSpace at hs
    simp only [Bool.or_eq_true, decide_eq_true_eq] at hs
    rcases hs with ((((hs | hs) | hs) | hs) | hs) | hs <;> (subst hs; revert h; simp [pauliOfLetter])

/-- reading a text adds the letters of its words -/
theorem parse_text {s : List Char} {ws : List (Pauli1 × Int)} (h : PauliText s ws) (p : PauliOp) :
    p.parseLoop s = p.addAll (wordCalls ws) := by
  induction h generalizing p with
  | blank w hw =>
    have : skipWs w = [] := by
      have := dropWhile_append_of_all (r := []) fun c hc => (isBlank_iff c).1 (hw c hc)
      simpa [skipWs] using this
    rw [PauliOp.parseLoop]
    split
    · rfl
    · rename_i h; rw [this] at h; cases h
  | word w1 w2 sign ds rest c P σ ws h1 h2 h3 h4 h5 h6 h7 h8 h9 ih =>
    have hsk : skipWs (w1 ++ c :: (w2 ++ (sign ++ (ds ++ rest)))) = c :: (w2 ++ (sign ++ (ds ++ rest))) := by
      unfold skipWs
      rw [dropWhile_append_of_all fun c hc => (isBlank_iff c).1 (h1 c hc), List.dropWhile_cons_of_neg (by rw [isSpace_letter h2]; simp)]
    have hread := readUInt_text (fun c hc => (isBlank_iff c).1 (h3 c hc)) h4 h5 h6 h7 h8
    rw [PauliOp.parseLoop]
    split
    · rename_i h; rw [hsk] at h; cases h
    · rename_i c' rest1 h
      rw [hsk] at h
      injection h with e1 e2
      subst e1; subst e2
      split
      · rename_i h; rw [hread] at h; cases h
      · rename_i q' rest' h
        rw [hread] at h
        simp only [Option.some.injEq, Prod.mk.injEq] at h
        obtain ⟨rfl, rfl⟩ := h
        have hid : pauliIdOfChar c = some (idOfPauli P) := by rw [letter_id, h2]; rfl
        rw [hid]
        show _ = p.addAll ((wrapped (σ (digitsValue ds)), idOfPauli P) :: wordCalls ws)
        simp only [PauliOp.addAll]
        by_cases h0 : idOfPauli P ≠ 0
        · rw [if_pos h0, if_pos h0]
          cases p.addSingle (wrapped (σ (digitsValue ds))) (idOfPauli P) with
          | error e => rfl
          | ok p' => exact ih p'
        · rw [if_neg h0, if_neg h0]
          exact ih p

/-- what is accepted is a text -/
theorem text_of_parse {s : List Char} {p p' : PauliOp} (h : p.parseLoop s = .ok p') : ∃ ws, PauliText s ws := by
  induction hn : s.length using Nat.strongRecOn generalizing p s with
  | ind n ih =>
    have hsp : s = s.takeWhile isSpace ++ skipWs s := (List.takeWhile_append_dropWhile ..).symm
    have hall : ∀ c ∈ s.takeWhile isSpace, IsBlank c := fun c hc => (isBlank_iff c).2 (takeWhile_mem hc)
    rw [PauliOp.parseLoop] at h
    split at h
    · rename_i hs
      rw [hs, List.append_nil] at hsp
      exact ⟨[], .blank s (by rw [hsp]; exact hall)⟩
    · rename_i c rest hs
      have h1 : (skipWs s).length ≤ s.length := (List.dropWhile_sublist _).length_le
      rw [hs] at h1
      simp at h1
      split at h
      · cases h
      · rename_i q rest' hr
        have h2 := length_readUInt hr
        obtain ⟨w, sign, ds, σ, e, k1, k2, k3, k4, k5, k6⟩ := readUInt_inv hr
        split at h
        · cases h
        · rename_i id hid
          obtain ⟨P, hP⟩ : ∃ P, pauliOfLetter c = some P := by
            rw [letter_id] at hid
            cases hp : pauliOfLetter c with
            | none => rw [hp] at hid; cases hid
            | some P => exact ⟨P, rfl⟩
          have fin : (∃ ws, PauliText rest' ws) → ∃ ws, PauliText s ws := by
            rintro ⟨ws, hws⟩
            refine ⟨(P, σ (digitsValue ds)) :: ws, ?_⟩
            rw [hsp, hs, e]
            exact .word _ _ _ _ _ _ _ _ _ hall hP (fun c hc => (isBlank_iff c).2 (k1 c hc)) k2 k3 k4 k5 k6 hws
          split at h
          · split at h
            · cases h
            · exact fin (ih rest'.length (by omega) h rfl)
          · exact fin (ih rest'.length (by omega) h rfl)

end Verif.Proofs
