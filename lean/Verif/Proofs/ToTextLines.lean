import Verif.Proofs.ToText
import Verif.Proofs.GateDescFacts
import Verif.Proofs.GateBuild
import Verif.Proofs.GateBounds

/-! # The lines written by `to_string` -/

namespace Verif.Proofs
open Verif Verif.Model Verif.Spec
attribute [-simp] BitVec.getLsbD_eq_getElem

theorem ofNat_lt_of_dim {n i : Nat} (hn : n ≤ 63) (hi : i < 2 ^ n) : i < 2 ^ 64 :=
  lt_trans hi (Nat.pow_lt_pow_right (by norm_num) (by omega))

/-! ## states -/

theorem amplitudeLine_plain {num : ℝ → List Char} (h : PrintsNumbers num) (n : Nat) (amp : U64 → ℂ) (i : Nat) : '\n' ∉ amplitudeLine num n amp i := by
  unfold amplitudeLine
  have h1 := basisLabel_plain (n := n) (i := i) (c := '\n') (by decide) (by decide)
  have h2 := complex_plain h (amp (BitVec.ofNat 64 i))
  simp [h1, h2]

theorem amplitudesText_lines {num : ℝ → List Char} (h : PrintsNumbers num) {n : Nat} (hn : n ≤ 63) (amp : U64 → ℂ) (rest : List Char) :
    textLines (amplitudesText num n amp ++ rest) = (List.range (2 ^ n)).map (amplitudeLine num n amp) ++ textLines rest := by
  rw [← textLines_flatten (amplitudeLine num n amp) _ (fun i _ => amplitudeLine_plain h n amp i) rest]
  unfold amplitudesText
  congr 3
  refine List.map_congr_left fun i hi => ?_
  rw [binaryText_label (by omega) (ofNat_lt_of_dim hn (List.mem_range.1 hi)), complexText_eq]
  unfold amplitudeLine
  simp

theorem sizeText_lines (n : Nat) (rest : List Char) :
    textLines (t! "Qubit Count : " ++ (decimal n ++ '\n' :: (t! "Dimension : " ++ (decimal (2 ^ n) ++ '\n' :: rest)))) =
      sizeLines n ++ textLines rest := by
  have h : ∀ m, '\n' ∉ numeral m := fun m => numeral_avoid (by decide)
  rw [decimal_numeral, decimal_numeral, ← List.append_assoc, textLines_cons (by simp [h]), ← List.append_assoc, textLines_cons (by simp [h])]
  rfl

theorem stateText_lines {num : ℝ → List Char} (h : PrintsNumbers num) {n : Nat} (hn : n ≤ 63) (amp : U64 → ℂ) :
    textLines (stateText num n amp) = sizeLines n ++ [t! "State vector : "] ++ (List.range (2 ^ n)).map (amplitudeLine num n amp) ++ [[]] := by
  unfold stateText
  rw [sizeText_lines, textLines_cons (by decide), ← List.append_nil (amplitudesText num n amp), amplitudesText_lines h hn, textLines_nil]
  simp

theorem batchText_lines {num : ℝ → List Char} (h : PrintsNumbers num) {n : Nat} (hn : n ≤ 63) (B : Nat) (amp : Nat → U64 → ℂ) :
    textLines (batchText num B n amp) = sizeLines n ++ ((List.range B).flatMap fun b =>
      [t! "--------------------", t! "Batch_id : " ++ numeral b, t! "State vector : "] ++ (List.range (2 ^ n)).map (amplitudeLine num n (amp b))) ++ [[]] := by
  unfold batchText
  rw [sizeText_lines, List.append_assoc]
  congr 1
  induction List.range B with
  | nil => exact textLines_nil
  | cons b bs ih =>
    rw [List.map_cons, List.flatten_cons, List.flatMap_cons]
    generalize (bs.map _).flatten = r at ih ⊢
    have e : (t! "--------------------" ++ '\n' :: (t! "Batch_id : " ++ (decimal b ++ '\n' :: (t! "State vector : " ++
        '\n' :: amplitudesText num n (amp b))))) ++ r = t! "--------------------" ++ '\n' :: ((t! "Batch_id : " ++ numeral b) ++ '\n' ::
        (t! "State vector : " ++ '\n' :: (amplitudesText num n (amp b) ++ r))) := by
      rw [decimal_numeral]
      simp
    rw [e, textLines_cons (by decide), textLines_cons (by
        have : '\n' ∉ numeral b := numeral_avoid (by decide)
        simp [this]), textLines_cons (by decide), amplitudesText_lines h hn, ih]
    simp

theorem elementLine_plain {num : ℝ → List Char} (h : PrintsNumbers num) (n : Nat) (m : U64 × U64 → ℂ) (i j : Nat) : '\n' ∉ elementLine num n m i j := by
  unfold elementLine
  have h1 := fun i => basisLabel_plain (n := n) (i := i) (c := '\n') (by decide) (by decide)
  have h2 := complex_plain h (m (BitVec.ofNat 64 i, BitVec.ofNat 64 j))
  simp [h1, h2]

theorem densityText_lines {num : ℝ → List Char} (h : PrintsNumbers num) (d : DM) (hn : d.n ≤ 63) :
    textLines (d.text num) = sizeLines d.n ++ [t! "Is Hermitian : " ++ (if d.hermitian then t! "true" else t! "false"), t! "Density Matrix : "] ++
      ((List.range (2 ^ d.n)).flatMap fun i => (List.range (2 ^ d.n)).map fun j => elementLine num d.n d.raw i j) ++ [[]] := by
  unfold DM.text
  have hb : '\n' ∉ boolText d.hermitian := by
    cases d.hermitian <;> decide
  rw [sizeText_lines, ← List.append_assoc (t! "Is Hermitian : "), textLines_cons (by simp [hb]), textLines_cons (by decide)]
  have key : ∀ is : List Nat, (∀ i ∈ is, i < 2 ^ d.n) → textLines ((is.map fun i => ((List.range (2 ^ d.n)).map fun j =>
      t! "  (" ++ (binaryText (BitVec.ofNat 64 i) d.n ++ (t! ", " ++ (binaryText (BitVec.ofNat 64 j) d.n ++ (t! ") : " ++
        (complexText num (d.raw (BitVec.ofNat 64 i, BitVec.ofNat 64 j)) ++ t! "\n")))))).flatten).flatten) =
      (is.flatMap fun i => (List.range (2 ^ d.n)).map fun j => elementLine num d.n d.raw i j) ++ [[]] := by
    intro is his
    induction is with
    | nil => exact textLines_nil
    | cons i is ih =>
      rw [List.map_cons, List.flatten_cons, List.flatMap_cons, List.append_assoc, ← ih fun i hi => his i (List.mem_cons_of_mem _ hi),
        ← textLines_flatten (fun j => elementLine num d.n d.raw i j) _ (fun j _ => elementLine_plain h _ _ _ _)]
      congr 3
      refine List.map_congr_left fun j hj => ?_
      rw [binaryText_label (by omega) (ofNat_lt_of_dim hn (List.mem_range.1 hj)),
        binaryText_label (by omega) (ofNat_lt_of_dim hn (his i List.mem_cons_self)), complexText_eq]
      unfold elementLine
      simp
  rw [key _ fun i hi => List.mem_range.1 hi]
  cases d.hermitian <;> simp [boolText]

/-! ## operators -/

theorem renderWords_chars {l : List (Char × Nat)} {c : Char} (h : c ∈ renderWords l) : c = ' ' ∨ c.isDigit = true ∨ ∃ x ∈ l, c = x.1 := by
  induction l with
  | nil => cases h
  | cons a l ih =>
    have key : c = a.1 ∨ c = ' ' ∨ c ∈ numeral a.2 ∨ c ∈ renderWords l := by
      unfold numeral
      cases l with
      | nil => simp [renderWords] at h ⊢; tauto
      | cons b l => simp [renderWords] at h ⊢; tauto
    rcases key with h | h | h | h
    · exact Or.inr (Or.inr ⟨a, List.mem_cons_self, h⟩)
    · exact Or.inl h
    · exact Or.inr (Or.inl (numeral_digit h))
    · rcases ih h with h | h | ⟨x, hx, h⟩
      · exact Or.inl h
      · exact Or.inr (Or.inl h)
      · exact Or.inr (Or.inr ⟨x, List.mem_cons_of_mem _ hx, h⟩)

theorem getString_spec (p : PauliOp) : ∃ s, p.getString = .ok s ∧ PauliOp.ofString s p.coef = .ok p ∧ '\n' ∉ s ∧ '"' ∉ s := by
  obtain ⟨s, h1, h2⟩ := string_roundTrip p
  refine ⟨s, h1, h2, ?_⟩
  have h3 : p.getString = .ok (renderWords (p.targetList.map (fun q => (charOfId (idAt p q), q)))) := by
    unfold PauliOp.getString
    rw [idList_eq]
    exact pauliStringLoop_eq (idAt p) (idAt_lt p) _
  rw [h1] at h3
  cases h3
  have hc : ∀ c, c ∈ renderWords (p.targetList.map (fun q => (charOfId (idAt p q), q))) → c = ' ' ∨ c.isDigit = true ∨ c ∈ ['I', 'X', 'Y', 'Z'] := by
    intro c hc
    rcases renderWords_chars hc with h | h | ⟨x, hx, h⟩
    · exact Or.inl h
    · exact Or.inr (Or.inl h)
    · obtain ⟨q, -, rfl⟩ := List.mem_map.1 hx
      refine Or.inr (Or.inr ?_)
      rw [h]
      unfold charOfId
      dsimp only
      split <;> decide
  constructor
  · intro h
    revert h
    intro h
    have := hc _ h
    revert this
    decide
  · intro h
    have := hc _ h
    revert this
    decide

/-- the letters of a Pauli operator -/
noncomputable def letters (p : PauliOp) : List Char := (getString_spec p).choose

theorem letters_spec (p : PauliOp) : p.getString = .ok (letters p) ∧ PauliOp.ofString (letters p) p.coef = .ok p ∧ '\n' ∉ letters p ∧ '"' ∉ letters p :=
  (getString_spec p).choose_spec

theorem pauliText_eq (num : ℝ → List Char) (p : PauliOp) : p.text num = .ok (termLine num p.coef (letters p)) := by
  unfold PauliOp.text
  rw [(letters_spec p).1, ok_bind, complexText_eq]
  unfold termLine
  simp [pure, Except.pure]

theorem termLine_plain {num : ℝ → List Char} (h : PrintsNumbers num) (p : PauliOp) : '\n' ∉ termLine num p.coef (letters p) := by
  unfold termLine
  have h1 := complex_plain h p.coef
  have h2 := (letters_spec p).2.2.1
  simp [h1, h2]

theorem termsText_eq (num : ℝ → List Char) (ts : List PauliOp) :
    termsText num ts = .ok ((ts.map fun p => termLine num p.coef (letters p) ++ ['\n']).flatten) := by
  induction ts with
  | nil => rfl
  | cons p ts ih =>
    rw [termsText, pauliText_eq, ok_bind, ih, ok_bind]
    simp [pure, Except.pure]

/-- same letters, same masks -/
theorem letters_injective {p q : PauliOp} (h : letters p = letters q) : p.x = q.x ∧ p.z = q.z := by
  have h1 := (letters_spec p).2.1
  have h2 := (string_roundTrip ⟨p.coef, q.x, q.z⟩)
  obtain ⟨s, e1, e2⟩ := h2
  have e3 : (⟨p.coef, q.x, q.z⟩ : PauliOp).getString = q.getString := rfl
  rw [e3, (letters_spec q).1] at e1
  cases e1
  rw [← h, h1] at e2
  have e4 := Except.ok.inj e2
  constructor <;> rw [e4]

theorem getOperatorAt_slot {l : List (List PauliOp)} {b : Nat} {ts : List PauliOp} (h : l[b]? = some ts) :
    (OpB.ofLists l).getOperatorAt b = .ok ⟨ts, true, false⟩ := by
  have hs := slots_ofLists l
  obtain ⟨hb, rfl⟩ := List.getElem?_eq_some_iff.1 h
  have hb' : b < (OpB.ofLists l).batchSize := by rw [hs.size]; exact hb
  unfold OpB.getOperatorAt
  rw [dif_pos hb', hs.subview ⟨b, hb'⟩]
  rfl

theorem textLoop_lines {num : ℝ → List Char} (h : PrintsNumbers num) (l : List (List PauliOp)) (zs : List (List PauliOp × Nat))
    (hz : ∀ a ∈ zs, l[a.2]? = some a.1) :
    ∃ s, (OpB.ofLists l).textLoop num (zs.map Prod.snd) = .ok s ∧ textLines s =
      (zs.flatMap fun a => (t! "Operator " ++ numeral a.2 ++ t! ":") :: a.1.map fun p => termLine num p.coef (letters p)) ++ [[]] := by
  induction zs with
  | nil => exact ⟨[], rfl, textLines_nil⟩
  | cons a zs ih =>
    obtain ⟨s, h1, h2⟩ := ih fun b hb => hz b (List.mem_cons_of_mem _ hb)
    rw [List.map_cons, OpB.textLoop, getOperatorAt_slot (hz a List.mem_cons_self), ok_bind]
    unfold Op.text
    rw [termsText_eq, ok_bind, h1, ok_bind]
    refine ⟨_, rfl, ?_⟩
    generalize hT : (List.map (fun p => termLine num p.coef (letters p) ++ ['\n']) a.1).flatten = T
    have e : t! "Operator " ++ (decimal a.2 ++ (t! ":\n" ++ (T ++ s))) = (t! "Operator " ++ numeral a.2 ++ t! ":") ++ '\n' :: (T ++ s) := by
      rw [decimal_numeral]
      simp
    rw [e, textLines_cons (by
        have : '\n' ∉ numeral a.2 := numeral_avoid (by decide)
        simp [this]), ← hT, textLines_flatten _ _ (fun p _ => termLine_plain h p), h2]
    simp

theorem opbText_lines {num : ℝ → List Char} (h : PrintsNumbers num) (l : List (List PauliOp)) :
    ∃ s, (OpB.ofLists l).text num = .ok s ∧ textLines s =
      (l.zipIdx.flatMap fun a => (t! "Operator " ++ numeral a.2 ++ t! ":") :: a.1.map fun p => termLine num p.coef (letters p)) ++ [[]] := by
  obtain ⟨s, h1, h2⟩ := textLoop_lines h l l.zipIdx (fun a ha => List.mk_mem_zipIdx_iff_getElem?.1 ha)
  refine ⟨s, ?_, h2⟩
  unfold OpB.text
  rw [(slots_ofLists l).rowLength, if_neg (by omega)]
  rw [List.zipIdx_map_snd, ← List.range_eq_range'] at h1
  exact h1

end Verif.Proofs
