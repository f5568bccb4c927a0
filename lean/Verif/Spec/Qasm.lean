import Verif.Spec.Circuit

/-! # What OpenQASM 2.0 with `qelib1.inc` can express

Written from the documentation of `dumps` (/repo/include/scaluq/qasm/qasm2.hpp:87-105): gates of `qelib1.inc`, no
control value 0, no parametric gates, no measurement with reset. -/

namespace Verif.Spec

/-- how many controls `qelib1.inc` offers for a one-qubit gate, `none` if it has no such gate -/
def maxControls : Gate1 → Option Nat
  | .X => some 2
  | .Y | .Z | .H | .RX _ | .RY _ | .RZ _ | .U1 _ | .U3 _ _ _ => some 1
  | .S | .Sdag | .T | .Tdag | .U2 _ _ => some 0
  | _ => none

/-- the instructions that can be written -/
def Exportable : Instr → Prop
  | .gate .ident => True
  | .gate (.one k _ cs vs) => (∃ m, maxControls k = some m ∧ cs.length ≤ m) ∧ ∀ v ∈ effectiveValues cs vs, v = 1
  | .gate (.swap _ _ cs vs) => cs.length ≤ 1 ∧ ∀ v ∈ effectiveValues cs vs, v = 1
  | .measure _ _ reset => reset = false
  | _ => False

/-- the angles an instruction mentions -/
def Instr.angles : Instr → List ℝ
  | .gate (.one (.RX θ) ..) | .gate (.one (.RY θ) ..) | .gate (.one (.RZ θ) ..) | .gate (.one (.U1 θ) ..) => [θ]
  | .gate (.one (.U2 a b) ..) => [a, b]
  | .gate (.one (.U3 a b c) ..) => [a, b, c]
  | _ => []

/-! ## registers -/

/-- the flat index of element `i` of register `name`, where `decls` are the declared names and sizes in order: registers follow
one another without gaps -/
def flatIndex : List (List Char × Nat) → List Char → Nat → Option Nat
  | [], _, _ => none
  | (m, size) :: rest, name, i =>
    if m = name then if i < size then some i else none
    else (flatIndex rest name i).map (size + ·)

/-- the number of elements of all registers -/
def totalSize (decls : List (List Char × Nat)) : Nat := (decls.map Prod.snd).sum

/-- different elements have different flat indices, all below the total -/
theorem flatIndex_lt {decls : List (List Char × Nat)} {name : List Char} {i a : Nat} (h : flatIndex decls name i = some a) :
    a < totalSize decls := by
  induction decls generalizing a with
  | nil => cases h
  | cons d ds ih =>
    obtain ⟨m, size⟩ := d
    unfold flatIndex at h
    unfold totalSize
    rw [List.map_cons, List.sum_cons]
    split at h
    · split at h
      · cases h
        dsimp only
        omega
      · cases h
    · cases hf : flatIndex ds name i with
      | none => rw [hf] at h; cases h
      | some b =>
        rw [hf] at h
        cases h
        have := ih hf
        unfold totalSize at this
        dsimp only
        omega

theorem flatIndex_inj {decls : List (List Char × Nat)} {name name' : List Char} {i i' a : Nat} (h : flatIndex decls name i = some a)
    (h' : flatIndex decls name' i' = some a) : name = name' ∧ i = i' := by
  induction decls generalizing a with
  | nil => cases h
  | cons d ds ih =>
    obtain ⟨m, size⟩ := d
    unfold flatIndex at h h'
    split at h <;> split at h'
    · rename_i h1 h2
      split at h <;> split at h'
      · cases h; cases h'
        exact ⟨h1.symm.trans h2, rfl⟩
      all_goals simp at h h'
    · split at h
      · cases h
        cases hf : flatIndex ds name' i' with
        | none => rw [hf] at h'; cases h'
        | some b =>
          rw [hf] at h'
          have : size + b = i := by simpa using h'
          omega
      · cases h
    · split at h'
      · cases h'
        cases hf : flatIndex ds name i with
        | none => rw [hf] at h; cases h
        | some b =>
          rw [hf] at h
          have : size + b = i' := by simpa using h
          omega
      · cases h'
    · cases hf : flatIndex ds name i with
      | none => rw [hf] at h; cases h
      | some b =>
        cases hf' : flatIndex ds name' i' with
        | none => rw [hf'] at h'; cases h'
        | some b' =>
          rw [hf] at h
          rw [hf'] at h'
          have e : size + b = a := by simpa using h
          have e' : size + b' = a := by simpa using h'
          have : b = b' := by omega
          subst this
          exact ih hf hf'

end Verif.Spec
