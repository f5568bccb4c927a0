import Verif.Proofs.PauliGrammar
import Verif.Props.Pauli

/-! # C71: the constructor of Pauli operators from text -/

namespace Verif.Props
open Verif Verif.Spec Verif.Model Verif.Proofs
attribute [-simp] BitVec.getLsbD_eq_getElem

theorem zip_calls (ws : List (Pauli1 × Int)) :
    ((wordCalls ws).map Prod.fst).zip ((wordCalls ws).map Prod.snd) = wordCalls ws := by
  generalize wordCalls ws = l
  induction l with
  | nil => rfl
  | cons a l ih => simp only [List.map_cons, List.zip_cons_cons, ih]

/-- the text is read as the list of the words -/
theorem ofString_eq {s : List Char} {ws : List (Pauli1 × Int)} (h : PauliText s ws) (coef : ℂ) :
    PauliOp.ofString s coef = PauliOp.ofLists ((wordCalls ws).map Prod.fst) ((wordCalls ws).map Prod.snd) coef := by
  unfold PauliOp.ofString PauliOp.ofLists
  rw [if_neg (by simp), parse_text h, zip_calls]

/-- **What the code does.**  A text is accepted exactly if it consists of words whose letters other than `I` stand, after the numbers
have been reduced modulo 2^64, on different qubits below 64.  The operator is the product of the letters.  Everything else throws. -/
theorem C71_text_exact (s : List Char) (coef : ℂ) :
    ((∃ p, PauliOp.ofString s coef = .ok p) ↔ ∃ ws, PauliText s ws ∧ PauliWordsOK (ws.map fun a => (a.1, a.2 % 2 ^ 64))) ∧
    (∀ e, PauliOp.ofString s coef = .error e → ∃ msg, e = .throw msg) ∧
    ∀ ws p, PauliText s ws → PauliOp.ofString s coef = .ok p → ∀ ψ, pauliOperator p ψ =
      fun j => coef * applyPaulis (ws.map fun a => ((a.2 % 2 ^ 64).toNat, a.1)) ψ j := by
  refine ⟨?_, fun e h => parse_error _ _ h, fun ws p hw hp ψ => ?_⟩
  · have key : ∀ ws, PauliText s ws → ((∃ p, PauliOp.ofString s coef = .ok p) ↔ PauliWordsOK (ws.map fun a => (a.1, a.2 % 2 ^ 64))) := by
      intro ws hw
      rw [ofString_eq hw, (C20_lists _ _ coef).1, zip_calls]
      have hne : ∀ P : Pauli1, idOfPauli P ≠ 0 ↔ P ≠ .I := fun P => not_congr idOfPauli_eq_zero
      constructor
      · rintro ⟨-, -, h1, h2⟩
        refine ⟨?_, ?_⟩
        · intro a ha hI
          obtain ⟨b, hb, rfl⟩ := List.mem_map.1 ha
          have := h1 _ (List.mem_map.2 ⟨b, hb, rfl⟩) ((hne _).2 hI)
          simp only [wrapped] at this
          have h0 : 0 ≤ b.2 % 2 ^ 64 := Int.emod_nonneg _ (by norm_num)
          exact ⟨h0, by simp only; omega⟩
        · unfold wordCalls at h2
          rw [List.pairwise_map] at h2 ⊢
          refine h2.imp ?_
          rintro a b (h | h | h)
          · exact .inl (idOfPauli_eq_zero.1 h)
          · exact .inr (.inl (idOfPauli_eq_zero.1 h))
          · exact .inr (.inr fun e => h (by simp only [wrapped]; simp only at e; rw [e]))
      · rintro ⟨h1, h2⟩
        refine ⟨by simp, ?_, ?_, ?_⟩
        · intro a ha
          obtain ⟨b, -, rfl⟩ := List.mem_map.1 ha
          cases b.1 <;> simp [idOfPauli]
        · intro a ha hI
          obtain ⟨b, hb, rfl⟩ := List.mem_map.1 ha
          have := h1 _ (List.mem_map.2 ⟨b, hb, rfl⟩) ((hne _).1 hI)
          simp only [wrapped] at this ⊢
          omega
        · unfold wordCalls
          rw [List.pairwise_map] at h2 ⊢
          refine h2.imp ?_
          rintro a b (h | h | h)
          · exact .inl (idOfPauli_eq_zero.2 h)
          · exact .inr (.inl (idOfPauli_eq_zero.2 h))
          · refine .inr (.inr fun e => h ?_)
            simp only [wrapped] at e ⊢
            have h0 : 0 ≤ a.2 % 2 ^ 64 := Int.emod_nonneg _ (by norm_num)
            have h0' : 0 ≤ b.2 % 2 ^ 64 := Int.emod_nonneg _ (by norm_num)
            omega
    constructor
    · rintro ⟨p, hp⟩
      obtain ⟨ws, hw⟩ := text_of_parse hp
      exact ⟨ws, hw, (key ws hw).1 ⟨p, hp⟩⟩
    · rintro ⟨ws, hw, h⟩
      exact (key ws hw).2 h
  · rw [ofString_eq hw] at hp
    rw [(C20_lists _ _ coef).2.2 p hp ψ, zip_calls]
    have : (wordCalls ws).map (fun a => (a.1, pauliOfId a.2)) = ws.map fun a => ((a.2 % 2 ^ 64).toNat, a.1) := by
      unfold wordCalls
      rw [List.map_map]
      refine List.map_congr_left fun a _ => ?_
      simp [pauliOfId_idOfPauli, wrapped]
    rw [this]

/-- numbers in a text without minus sign are not negative and are below 2^64 -/
theorem no_minus {s : List Char} {ws : List (Pauli1 × Int)} (h : PauliText s ws) (hs : '-' ∉ s) : ∀ a ∈ ws, 0 ≤ a.2 ∧ a.2 < 2 ^ 64 := by
  induction h with
  | blank => simp
  | word w1 w2 sign ds rest c P σ ws h1 h2 h3 h4 h5 h6 h7 h8 h9 ih =>
    simp only [List.mem_append, List.mem_cons, not_or] at hs
    intro a ha
    rcases List.mem_cons.1 ha with rfl | ha
    · cases h4 with
      | none => exact ⟨by simp, by simp only [id]; omega⟩
      | plus => exact ⟨by simp, by simp only [id]; omega⟩
      | minus => simp at hs
    · exact ih hs.2.2.2.2.2 a ha

/-- **C71.** A text without minus sign is accepted exactly if it consists of words with different qubits below 64 (identities apart), and
then is the product of its letters; everything else throws.  Missing: texts with a minus sign (`C71_text_counterexample`). -/
theorem C71_text_partial (s : List Char) (hs : '-' ∉ s) (coef : ℂ) :
    ((∃ p, PauliOp.ofString s coef = .ok p) ↔ ∃ ws, PauliText s ws ∧ PauliWordsOK ws) ∧
    (∀ e, PauliOp.ofString s coef = .error e → ∃ msg, e = .throw msg) ∧
    ∀ ws p, PauliText s ws → PauliOp.ofString s coef = .ok p → ∀ ψ, pauliOperator p ψ =
      fun j => coef * applyPaulis (ws.map fun a => (a.2.toNat, a.1)) ψ j := by
  obtain ⟨h1, h2, h3⟩ := C71_text_exact s coef
  have e : ∀ ws, PauliText s ws → ∀ a ∈ ws, a.2 % 2 ^ 64 = a.2 := fun ws hw a ha =>
    Int.emod_eq_of_lt (no_minus hw hs a ha).1 (no_minus hw hs a ha).2
  refine ⟨?_, h2, fun ws p hw hp ψ => ?_⟩
  · rw [h1]
    refine exists_congr fun ws => and_congr_right fun hw => ?_
    have : (ws.map fun a => (a.1, a.2 % 2 ^ 64)) = ws.map id := List.map_congr_left fun a ha => Prod.ext rfl (e ws hw a ha)
    rw [this, List.map_id]
  · rw [h3 ws p hw hp ψ]
    have : (ws.map fun a => ((a.2 % 2 ^ 64).toNat, a.1)) = ws.map fun a => (a.2.toNat, a.1) :=
      List.map_congr_left fun a ha => Prod.ext (congrArg Int.toNat (e ws hw a ha)) rfl
    rw [this]

/-- `"X -18446744073709551615"` is accepted as X on qubit 1 -/
def wrappedText : List Char := "X -18446744073709551615".toList

theorem wrappedText_words : PauliText wrappedText [(.X, -18446744073709551615)] :=
  .word [] [' '] ['-'] "18446744073709551615".toList [] 'X' .X Neg.neg [] (by simp) rfl (by simp [IsBlank]) .minus (by decide) (by decide)
    (by decide) (by simp) (.blank [] (by simp))

/-- A negative qubit number is not rejected. -/
theorem C71_text_counterexample : PauliText wrappedText [(.X, -18446744073709551615)] ∧ ¬ PauliWordsOK [(.X, -18446744073709551615)] ∧
    ∃ p, PauliOp.ofString wrappedText 1 = .ok p ∧ ∀ ψ, pauliOperator p ψ = applyMat [1] (pauli1Mat .X) [] ψ := by
  obtain ⟨h1, -, h3⟩ := C71_text_exact wrappedText 1
  have hw := wrappedText_words
  obtain ⟨p, hp⟩ := h1.2 ⟨_, hw, by simp [PauliWordsOK]⟩
  refine ⟨hw, by simp [PauliWordsOK], p, hp, fun ψ => ?_⟩
  rw [h3 _ p hw hp ψ]
  simp [applyPaulis]

/-- an accepted text with both cases, a plus sign and white space -/
example : '-' ∉ " X 0y +12\tI 99".toList ∧ PauliText " X 0y +12\tI 99".toList [(.X, 0), (.Y, 12), (.I, 99)] ∧
    PauliWordsOK [(.X, 0), (.Y, 12), (.I, 99)] := by
  refine ⟨by decide, ?_, by simp [PauliWordsOK]⟩
  exact .word [' '] [' '] [] ['0'] "y +12\tI 99".toList 'X' .X id _ (by simp [IsBlank]) rfl (by simp [IsBlank]) .none (by simp) (by decide)
    (by decide) (by rintro c r ⟨⟩; rfl)
    (.word [] [' '] ['+'] ['1', '2'] "\tI 99".toList 'y' .Y id _ (by simp) rfl (by simp [IsBlank]) .plus (by simp) (by decide)
      (by decide) (by rintro c r ⟨⟩; rfl)
      (.word ['\t'] [' '] [] ['9', '9'] [] 'I' .I id _ (by simp [IsBlank]) rfl (by simp [IsBlank]) .none (by simp) (by decide)
        (by decide) (by simp) (.blank [] (by simp))))

end Verif.Props
