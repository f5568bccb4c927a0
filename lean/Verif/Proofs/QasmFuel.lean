import Verif.Proofs.QasmRead

/-! # OpenQASM: parsing an angle never reaches the bound of the model -/

namespace Verif.Proofs
open Verif Verif.Spec Verif.Model

theorem skipSpaces_length (s : Text) : (skipSpaces s).length ≤ s.length := (List.dropWhile_suffix _).length_le

theorem consume_length {c : Char} {s s' : Text} (h : consume c s = some s') : s'.length < s.length := by
  have := skipSpaces_length s
  unfold consume at h
  split at h
  · rename_i d t e
    split at h
    · cases h
      rw [e] at this
      simp at this
      omega
    · cases h
  · cases h

/-- a number and a rest of the text not longer than `n`, or an exception -/
def Shrinks (x : Res (ℝ × Text)) (n : Nat) : Prop := (∃ v s, x = .ok (v, s) ∧ s.length ≤ n) ∨ ∃ m, x = .error (.throw m)

theorem Shrinks.bind {x : Res (ℝ × Text)} {n n' : Nat} (h : Shrinks x n) {f : ℝ × Text → Res (ℝ × Text)}
    (hf : ∀ v s, s.length ≤ n → Shrinks (f (v, s)) n') : Shrinks (x >>= f) n' := by
  rcases h with ⟨v, s, rfl, hs⟩ | ⟨m, rfl⟩
  · exact hf v s hs
  · exact .inr ⟨m, rfl⟩

theorem Shrinks.mono {x : Res (ℝ × Text)} {n n' : Nat} (h : Shrinks x n) (hn : n ≤ n') : Shrinks x n' := by
  rcases h with ⟨v, s, h, hs⟩ | h
  · exact .inl ⟨v, s, h, hs.trans hn⟩
  · exact .inr h

theorem parseIdentifier_shrinks {c : Char} {s : Text} (hc : isWord c = true) : Shrinks (parseIdentifier (c :: s)) s.length := by
  unfold parseIdentifier
  split
  · refine .inl ⟨_, _, rfl, ?_⟩
    rw [List.dropWhile_cons_of_pos hc]
    exact (List.dropWhile_suffix _).length_le
  · exact .inr ⟨_, rfl⟩

theorem parseNumber_shrinks {lib : Libc} {c : Char} {s : Text} : Shrinks (parseNumber lib (c :: s)) s.length := by
  unfold parseNumber
  split
  · exact .inr ⟨_, rfl⟩
  · rename_i h
    refine .inl ⟨_, _, rfl, ?_⟩
    rw [List.length_drop, List.length_cons]
    omega

theorem angle_shrinks (lib : Libc) (k : Nat) : ∀ s : Text,
    (6 * s.length + 4 ≤ k → Shrinks (parseAddSub lib k s) (s.length - 1)) ∧
    (6 * s.length + 1 ≤ k → ∀ v, Shrinks (addSubLoop lib k v s) s.length) ∧
    (6 * s.length + 3 ≤ k → Shrinks (parseMulDiv lib k s) (s.length - 1)) ∧
    (6 * s.length + 1 ≤ k → ∀ v, Shrinks (mulDivLoop lib k v s) s.length) ∧
    (6 * s.length + 2 ≤ k → Shrinks (parseUnary lib k s) (s.length - 1)) ∧
    (6 * s.length + 1 ≤ k → Shrinks (parsePrimary lib k s) (s.length - 1)) := by
  induction k with
  | zero => intro s; refine ⟨?_, ?_, ?_, ?_, ?_, ?_⟩ <;> intro h <;> omega
  | succ k ih =>
    intro s
    refine ⟨?_, ?_, ?_, ?_, ?_, ?_⟩
    · intro hk
      rw [parseAddSub]
      refine ((ih s).2.2.1 (by omega)).bind fun v s' hs => ?_
      exact ((ih s').2.1 (by omega) v).mono hs
    · intro hk v
      rw [addSubLoop]
      split
      · rename_i s' hc
        have := consume_length hc
        refine ((ih s').2.2.1 (by omega)).bind fun w s'' hs => ?_
        exact ((ih s'').2.1 (by omega) _).mono (by omega)
      · split
        · rename_i s' hc
          have := consume_length hc
          refine ((ih s').2.2.1 (by omega)).bind fun w s'' hs => ?_
          exact ((ih s'').2.1 (by omega) _).mono (by omega)
        · exact .inl ⟨_, _, rfl, skipSpaces_length s⟩
    · intro hk
      rw [parseMulDiv]
      refine ((ih s).2.2.2.2.1 (by omega)).bind fun v s' hs => ?_
      exact ((ih s').2.2.2.1 (by omega) v).mono hs
    · intro hk v
      rw [mulDivLoop]
      split
      · rename_i s' hc
        have := consume_length hc
        refine ((ih s').2.2.2.2.1 (by omega)).bind fun w s'' hs => ?_
        exact ((ih s'').2.2.2.1 (by omega) _).mono (by omega)
      · split
        · rename_i s' hc
          have := consume_length hc
          refine ((ih s').2.2.2.2.1 (by omega)).bind fun w s'' hs => ?_
          dsimp only
          split
          · exact .inr ⟨_, rfl⟩
          · exact ((ih s'').2.2.2.1 (by omega) _).mono (by omega)
        · exact .inl ⟨_, _, rfl, skipSpaces_length s⟩
    · intro hk
      rw [parseUnary]
      split
      · rename_i s' hc
        have := consume_length hc
        exact ((ih s').2.2.2.2.1 (by omega)).mono (by omega)
      · split
        · rename_i s' hc
          have := consume_length hc
          refine ((ih s').2.2.2.2.1 (by omega)).bind fun w s'' hs => ?_
          exact .inl ⟨_, _, rfl, by omega⟩
        · exact (ih s).2.2.2.2.2 (by omega)
    · intro hk
      rw [parsePrimary]
      split
      · rename_i s' hc
        have := consume_length hc
        refine ((ih s').1 (by omega)).bind fun w s'' hs => ?_
        dsimp only
        split
        · exact .inr ⟨_, rfl⟩
        · rename_i s3 hc2
          have := consume_length hc2
          exact .inl ⟨_, _, rfl, by omega⟩
      · have hl := skipSpaces_length s
        split
        · exact .inr ⟨_, rfl⟩
        · rename_i c cs e
          rw [e] at hl
          simp only [List.length_cons] at hl
          split
          · rename_i hc
            refine (parseIdentifier_shrinks ?_).mono (by omega)
            unfold isWord Char.isAlphanum
            rcases Bool.or_eq_true _ _ ▸ hc with h | h <;> simp [h]
          · exact parseNumber_shrinks.mono (by omega)

/-- **the bound is never reached**: an angle is read, or an exception is thrown -/
theorem angleFuel_suffices (lib : Libc) (s : Text) : (∃ x, parseAngle lib s = .ok x) ∨ ∃ m, parseAngle lib s = .error (.throw m) := by
  unfold parseAngle
  rcases (angle_shrinks lib (6 * s.length + 6) s).1 (by omega) with ⟨v, s', h, -⟩ | ⟨m, h⟩
  · rw [h, ok_bind]
    dsimp only
    split
    · exact .inl ⟨_, rfl⟩
    · exact .inr ⟨_, rfl⟩
  · rw [h]
    exact .inr ⟨m, rfl⟩

end Verif.Proofs
