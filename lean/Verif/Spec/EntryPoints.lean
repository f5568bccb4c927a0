import Verif.Spec.Circuit
import Verif.Model.EntryPoints

/-! # Specification: what a call of `update_quantum_state` does with its arguments

Only the types of the arguments are taken from the model. -/

namespace Verif.Spec
open Verif Verif.Model

/-- the outcomes of a call: amplitudes, register argument and exception afterwards -/
abbrev Outcomes := (BitVec 64 → ℂ) → RegArg → Option Fault → Prop

/-- the call ends without exception, always with these amplitudes and this register -/
def Ends (R : Outcomes) (ψ : BitVec 64 → ℂ) (a : RegArg) : Prop := ∀ ψ' a' f, R ψ' a' f ↔ ψ' = ψ ∧ a' = a ∧ f = none

/-- the call throws an exception; amplitudes and register are those from before -/
def Refused (R : Outcomes) (ψ : BitVec 64 → ℂ) (a : RegArg) : Prop := ∃ msg, ∀ ψ' a' f, R ψ' a' f ↔ ψ' = ψ ∧ a' = a ∧ f = some (.throw msg)

/-- the classical bits a call on one state works with: none at all if no register is given -/
inductive Bits : RegArg → List Bool → Prop
  | absent : Bits .absent []
  | single (bits : List Bool) : Bits (.single bits) bits

/-- the register argument with new bits -/
inductive Stored : RegArg → List Bool → RegArg → Prop
  | absent (bits : List Bool) : Stored .absent bits .absent
  | single (old bits : List Bool) : Stored (.single old) bits (.single bits)

/-- the bits of the slots of a batch of `B` states -/
inductive Rows (B : Nat) : RegArg → Nat → List (List Bool) → Prop
  | absent (rows : List (List Bool)) : rows.length = B → (∀ r ∈ rows, r = []) → Rows B .absent 0 rows
  | batched (sz : Nat) (rows : List (List Bool)) : rows.length = B → (∀ r ∈ rows, r.length = sz) → Rows B (.batched ⟨sz, rows⟩) sz rows

/-- afterwards slot `b` has the bits `rows b` -/
inductive RowsStored (B : Nat) : RegArg → (Nat → List Bool) → RegArg → Prop
  | absent (rows : Nat → List Bool) : RowsStored B .absent rows .absent
  | batched (sz : Nat) (old new : List (List Bool)) (rows : Nat → List Bool) : new.length = B →
      (∀ b < B, new[b]? = some (rows b)) → RowsStored B (.batched ⟨sz, old⟩) rows (.batched ⟨sz, new⟩)

/-- the numbers a call draws: those of its seed if it has one -/
def Seeded (R : Rng) (seed : Option Nat) (us : List ℝ) : Prop :=
  ∀ i (hi : i < us.length), (match seed with
    | some s => R.engine s i
    | none => R.engine R.entropy i) = us[i]

/-- one kind of gate call: slots of a batch afterwards -/
structure BatchEnds (R : Outcomes) (B n : Nat) (Ψ : BitVec 64 → ℂ) (a : RegArg) (ψ' : Nat → BitVec 64 → ℂ) (rows' : Nat → List Bool) :
    Prop where
  ends : ∃ Ψ' a', Ends R Ψ' a' ∧ RowsStored B a rows' a' ∧ (∀ b < B, slotOf n b Ψ' = ψ' b) ∧
    ∀ j : BitVec 64, ¬ j.toNat < B * 2 ^ n → Ψ' j = Ψ j

/-- a line that uses classical bits: a measurement or a classical condition -/
def Line.UsesBits (l : Line) : Prop := l.cond ≠ none ∨ ∃ q cbit reset, l.instr = .measure q cbit reset

/-- the parameters of a call on one state: a dictionary, or keywords -/
inductive NumberGiven : DictArg → List (String × KwValue) → String → ℝ → Prop
  | dict (d : List (String × ℝ)) (k : String) (t : ℝ) : (k, t) ∈ d → NumberGiven (.numbers d) [] k t
  | keyword (kw : List (String × KwValue)) (k : String) (t : ℝ) : (k, .number t) ∈ kw → NumberGiven .absent kw k t

/-- the parameters of a call on a batch -/
inductive SequenceGiven : DictArg → List (String × KwValue) → String → List ℝ → Prop
  | dict (d : List (String × List ℝ)) (k : String) (t : List ℝ) : (k, t) ∈ d → SequenceGiven (.sequences d) [] k t
  | keyword (kw : List (String × KwValue)) (k : String) (t : List ℝ) : (k, .sequence t) ∈ kw → SequenceGiven .absent kw k t

/-- parameters for a call on one state, without the same name twice -/
inductive NumbersOK : DictArg → List (String × KwValue) → Prop
  | dict (d : List (String × ℝ)) : (d.map (·.1)).Nodup → NumbersOK (.numbers d) []
  | empty : NumbersOK (.sequences []) []
  | keyword (kw : List (String × KwValue)) : (kw.map (·.1)).Nodup → (∀ k v, (k, v) ∈ kw → ∃ t, v = .number t) → NumbersOK .absent kw

/-- parameters for a call on a batch -/
inductive SequencesOK : DictArg → List (String × KwValue) → Prop
  | dict (d : List (String × List ℝ)) : (d.map (·.1)).Nodup → SequencesOK (.sequences d) []
  | empty : SequencesOK (.numbers []) []
  | keyword (kw : List (String × KwValue)) : (kw.map (·.1)).Nodup → (∀ k v, (k, v) ∈ kw → ∃ t, v = .sequence t) → SequencesOK .absent kw

end Verif.Spec
