import Verif.Model.ToText
import Verif.Spec.Text
import Verif.Proofs.QasmText
import Verif.Proofs.PauliText
import Verif.Proofs.GateObj
import Verif.Proofs.OperatorBatched

/-! # Lemmas about the texts written by `to_string` -/

namespace Verif.Proofs
open Verif Verif.Model Verif.Spec
attribute [-simp] BitVec.getLsbD_eq_getElem

/-! ## lines -/

theorem textLines_cons {a : List Char} (h : '\n' ∉ a) (b : List Char) : textLines (a ++ '\n' :: b) = a :: textLines b :=
  List.splitOn_append_cons_self_of_not_mem h b

theorem textLines_one {a : List Char} (h : '\n' ∉ a) : textLines a = [a] := List.splitOn_eq_singleton h

theorem textLines_nil : textLines [] = [[]] := List.splitOn_nil _

theorem textLines_flatten {A : Type} (f : A → List Char) (xs : List A) (h : ∀ x ∈ xs, '\n' ∉ f x) (rest : List Char) :
    textLines ((xs.map fun x => f x ++ ['\n']).flatten ++ rest) = xs.map f ++ textLines rest := by
  induction xs with
  | nil => rfl
  | cons x xs ih =>
    rw [List.map_cons, List.flatten_cons, List.append_assoc, List.append_assoc, List.singleton_append,
      textLines_cons (h x List.mem_cons_self), ih fun y hy => h y (List.mem_cons_of_mem _ hy)]
    rfl

theorem cut_eq {c : Char} {a b x y : List Char} (ha : c ∉ a) (hb : c ∉ b) (e : a ++ c :: x = b ++ c :: y) : a = b ∧ x = y := by
  induction a generalizing b with
  | nil =>
    cases b with
    | nil => exact ⟨rfl, (List.cons.inj e).2⟩
    | cons d b =>
      rw [List.nil_append, List.cons_append, List.cons.injEq] at e
      exact absurd (by rw [e.1]; exact List.mem_cons_self) hb
  | cons d a ih =>
    cases b with
    | nil =>
      rw [List.nil_append, List.cons_append, List.cons.injEq] at e
      exact absurd (by rw [e.1]; exact List.mem_cons_self) ha
    | cons d' b =>
      rw [List.cons_append, List.cons_append, List.cons.injEq] at e
      obtain ⟨rfl, e⟩ := e
      obtain ⟨rfl, e'⟩ := ih (fun h => ha (List.mem_cons_of_mem _ h)) (fun h => hb (List.mem_cons_of_mem _ h)) e
      exact ⟨rfl, e'⟩

/-! ## numbers -/

theorem decimal_numeral (n : Nat) : decimal n = numeral n := by
  unfold numeral
  induction n using Nat.strongRecOn with
  | ind n ih =>
    rw [decimal, Nat.toDigits_eq_if (by norm_num)]
    have hd : ∀ k, k < 10 → Char.ofNat ('0'.toNat + k) = Nat.digitChar k := by
      intro k hk
      interval_cases k <;> rfl
    split
    · rename_i h
      rw [hd n h]
    · rename_i h
      rw [ih (n / 10) (by omega), hd _ (Nat.mod_lt _ (by norm_num))]

theorem numeral_digit {n : Nat} {c : Char} (h : c ∈ numeral n) : c.isDigit = true := by
  rw [← decimal_numeral] at h
  exact (decimal_spec n).1 c h

theorem numeral_ne_nil (n : Nat) : numeral n ≠ [] := by
  rw [← decimal_numeral]
  exact (decimal_spec n).2.1

theorem numeral_injective {a b : Nat} (h : numeral a = numeral b) : a = b := by
  rw [← decimal_numeral, ← decimal_numeral] at h
  rw [← (decimal_spec a).2.2, h, (decimal_spec b).2.2]

theorem numeral_avoid {n : Nat} {c : Char} (h : c.isDigit = false) : c ∉ numeral n := fun hc => by
  rw [numeral_digit hc] at h
  cases h

theorem prints_avoid {num : ℝ → List Char} (h : PrintsNumbers num) {c : Char} (h1 : c.isAlphanum = false) (h2 : c ∉ ['.', '-', '+']) (x : ℝ) :
    c ∉ num x := fun hc => by
  rcases h x c hc with h | h
  · rw [h1] at h
    cases h
  · exact h2 h

theorem complexText_eq (num : ℝ → List Char) (z : ℂ) : complexText num z = complexNumeral num z := by
  unfold complexText complexNumeral
  simp

theorem complex_plain {num : ℝ → List Char} (h : PrintsNumbers num) (z : ℂ) : '\n' ∉ complexNumeral num z := by
  have h1 := prints_avoid h (c := '\n') (by decide) (by decide)
  unfold complexNumeral
  simp [h1]

theorem complex_injective {num : ℝ → List Char} (h : PrintsNumbers num) {z w : ℂ} {r s : List Char}
    (e : complexNumeral num z ++ r = complexNumeral num w ++ s) : num z.re = num w.re ∧ num z.im = num w.im ∧ r = s := by
  have h1 := prints_avoid h (c := ',') (by decide) (by decide)
  have h2 := prints_avoid h (c := ')') (by decide) (by decide)
  unfold complexNumeral at e
  simp only [List.append_assoc, List.cons_append, List.nil_append, List.cons.injEq, true_and] at e
  obtain ⟨e1, e⟩ := cut_eq (h1 _) (h1 _) e
  obtain ⟨e2, e⟩ := cut_eq (h2 _) (h2 _) e
  exact ⟨e1, e2, e⟩

/-! ## labels -/

theorem binaryText_label {n i : Nat} (hn : n ≤ 64) (hi : i < 2 ^ 64) : binaryText (BitVec.ofNat 64 i) n = basisLabel n i := by
  unfold basisLabel
  induction n with
  | zero => rfl
  | succ n ih =>
    rw [binaryText, ih (by omega), List.range_succ, List.reverse_append, List.map_append]
    have hb : ((BitVec.ofNat 64 i >>> n) &&& 1#64).toNat = if i.testBit n then 1 else 0 := by
      rw [BitVec.toNat_and, BitVec.toNat_ushiftRight, BitVec.toNat_ofNat, Nat.mod_eq_of_lt hi]
      show (i >>> n) &&& (1 % 2 ^ 64) = _
      rw [show (1 % 2 ^ 64 : Nat) = 1 from rfl, Nat.and_one_is_mod, Nat.testBit, Nat.one_and_eq_mod_two]
      rcases Nat.mod_two_eq_zero_or_one (i >>> n) with h | h <;> rw [h] <;> rfl
    rw [show (1 : U64) = 1#64 from rfl, hb, List.reverse_singleton, List.map_singleton, List.singleton_append]
    cases i.testBit n <;> rfl

theorem basisLabel_chars {n i : Nat} {c : Char} (h : c ∈ basisLabel n i) : c = '0' ∨ c = '1' := by
  unfold basisLabel at h
  obtain ⟨k, -, rfl⟩ := List.mem_map.1 h
  split
  · exact Or.inr rfl
  · exact Or.inl rfl

theorem basisLabel_plain {n i : Nat} {c : Char} (h0 : c ≠ '0') (h1 : c ≠ '1') : c ∉ basisLabel n i := fun h => by
  rcases basisLabel_chars h with h | h
  · exact h0 h
  · exact h1 h

theorem basisLabel_length (n i : Nat) : (basisLabel n i).length = n := by
  unfold basisLabel
  simp

theorem basisLabel_injective {n i j : Nat} (hi : i < 2 ^ n) (hj : j < 2 ^ n) (h : basisLabel n i = basisLabel n j) : i = j := by
  refine Nat.eq_of_testBit_eq fun k => ?_
  by_cases hk : k < n
  · unfold basisLabel at h
    have := List.map_inj_left.1 h k (by simpa using hk)
    revert this
    cases i.testBit k <;> cases j.testBit k <;> simp
  · rw [Nat.testBit_lt_two_pow (lt_of_lt_of_le hi (Nat.pow_le_pow_right (by norm_num) (not_lt.1 hk))),
      Nat.testBit_lt_two_pow (lt_of_lt_of_le hj (Nat.pow_le_pow_right (by norm_num) (not_lt.1 hk)))]

/-! ## lists -/

theorem listLoop_eq (xs : List Nat) : listLoop xs = (t! ", ").intercalate (xs.map numeral) := by
  induction xs with
  | nil => rfl
  | cons x xs ih =>
    cases xs with
    | nil => simp [listLoop, decimal_numeral]
    | cons y ys => 
      simp only [List.map_cons] at ih ⊢
      rw [listLoop, ih, List.intercalate_cons_cons, decimal_numeral, List.append_assoc]
      simp

theorem permLoop_eq (xs : List Nat) : permLoop xs = (t! ", ").intercalate (xs.map numeral) := by
  unfold permLoop
  rw [show decimal = numeral from funext decimal_numeral]

theorem commas_plain {c : Char} (h : c.isDigit = false) (h1 : c ≠ ',') (h2 : c ≠ ' ') (xs : List Nat) : c ∉ (t! ", ").intercalate (xs.map numeral) := by
  induction xs with
  | nil => simp
  | cons x xs ih =>
    cases xs with
    | nil => simpa using numeral_avoid h
    | cons y ys =>
      rw [List.map_cons, List.map_cons, List.intercalate_cons_cons, ← List.map_cons (f := numeral)]
      simp only [List.mem_append, List.mem_cons, List.not_mem_nil, or_false, not_or]
      exact ⟨⟨numeral_avoid h, h1, h2⟩, ih⟩

theorem commas_injective {xs ys : List Nat} (h : (t! ", ").intercalate (xs.map numeral) = (t! ", ").intercalate (ys.map numeral)) : xs = ys := by
  have split : ∀ {a b : Nat} {x y : List Char}, numeral a ++ ',' :: x = numeral b ++ ',' :: y → a = b ∧ x = y := by
    intro a b x y e
    obtain ⟨e1, e2⟩ := cut_eq (numeral_avoid (by decide)) (numeral_avoid (by decide)) e
    exact ⟨numeral_injective e1, e2⟩
  have ne : ∀ (x : Nat) (y z : Nat) (l : List Nat), numeral x ≠ (t! ", ").intercalate ((y :: z :: l).map numeral) := by
    intro x y z l e
    have : ',' ∈ numeral x := by
      rw [e, List.map_cons, List.map_cons, List.intercalate_cons_cons]
      simp
    exact numeral_avoid (by decide) this
  induction xs generalizing ys with
  | nil =>
    cases ys with
    | nil => rfl
    | cons y ys =>
      cases ys with
      | nil => simp at h; exact absurd h (numeral_ne_nil y)
      | cons z ys => rw [List.map_cons, List.map_cons, List.intercalate_cons_cons] at h; simp at h
  | cons x xs ih =>
    cases ys with
    | nil =>
      cases xs with
      | nil => simp at h; exact absurd h (numeral_ne_nil x)
      | cons z ys => rw [List.map_cons, List.map_cons, List.intercalate_cons_cons] at h; simp at h
    | cons y ys =>
      cases xs with
      | nil =>
        cases ys with
        | nil => simp at h; rw [numeral_injective h]
        | cons z zs => simp only [List.map_cons, List.map_nil, List.intercalate_singleton] at h; exact absurd h (ne x y z zs)
      | cons w ws =>
        cases ys with
        | nil => simp only [List.map_cons, List.map_nil, List.intercalate_singleton] at h; exact absurd h.symm (ne y x w ws)
        | cons z zs =>
          rw [List.map_cons, List.map_cons, List.map_cons, List.map_cons, List.intercalate_cons_cons, List.intercalate_cons_cons] at h
          simp only [List.append_assoc, List.cons_append, List.nil_append] at h
          obtain ⟨rfl, e⟩ := split h
          rw [ih (ys := z :: zs) (by simpa using e)]

theorem braces_plain (xs : List Nat) : '\n' ∉ braces xs := by
  unfold braces
  simp [commas_plain (c := '\n') (by decide) (by decide) (by decide)]

theorem braces_injective {xs ys : List Nat} (h : braces xs = braces ys) : xs = ys := by
  unfold braces at h
  simp only [List.cons_append, List.nil_append, List.cons.injEq, true_and, List.append_cancel_right_eq] at h
  exact commas_injective h

theorem listLine_eq (indent key : List Char) (xs : List Nat) : listLine indent key xs = indent ++ (key ++ braces xs) := by
  unfold listLine braces
  rw [listLoop_eq]
  simp

end Verif.Proofs
