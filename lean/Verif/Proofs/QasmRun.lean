import Verif.Proofs.QasmRound
import Verif.Proofs.CircuitBatched

/-! # OpenQASM: leaving out identity gates does not change what a circuit does -/

namespace Verif.Proofs
open Verif Verif.Spec Verif.Model
attribute [-simp] BitVec.getLsbD_eq_getElem

/-- entries that do nothing may be left out -/
theorem seqRun_filter {ι C : Type} {step : ι → C → C → Option Fault → Prop} (p : ι → Bool)
    (h : ∀ i c c' f, p i = false → (step i c c' f ↔ c' = c ∧ f = none)) (l : List ι) (c c' : C) (f : Option Fault) :
    SeqRun step (l.filter p) c c' f ↔ SeqRun step l c c' f := by
  induction l generalizing c with
  | nil => rfl
  | cons i l ih =>
    cases hp : p i with
    | true =>
      rw [List.filter_cons_of_pos hp]
      constructor
      · intro hr
        cases hr with
        | cons _ _ _ c1 _ _ h1 h2 => exact .cons _ _ _ _ _ _ h1 ((ih _).1 h2)
        | stop _ _ _ _ _ h1 => exact .stop _ _ _ _ _ h1
      · intro hr
        cases hr with
        | cons _ _ _ c1 _ _ h1 h2 => exact .cons _ _ _ _ _ _ h1 ((ih _).2 h2)
        | stop _ _ _ _ _ h1 => exact .stop _ _ _ _ _ h1
    | false =>
      rw [List.filter_cons_of_neg (by simp [hp]), ih]
      constructor
      · intro hr
        exact .cons _ _ _ _ _ _ ((h i c c none hp).2 ⟨rfl, rfl⟩) hr
      · intro hr
        cases hr with
        | cons _ _ _ c1 _ _ h1 h2 =>
          obtain ⟨rfl, -⟩ := (h i c c1 none hp).1 h1
          exact h2
        | stop _ _ _ _ _ h1 => exact absurd ((h i c _ _ hp).1 h1).2 (by simp)

theorem keep_false {g : Item} (h : keep g = false) : g = .inl (.det .ident) := by
  rcases g with g | g
  · cases g with
    | det u =>
      cases u with
      | ident => rfl
      | _ => cases h
    | _ => cases h
  · cases h

/-- an unconditional identity gate does nothing -/
theorem lineStep_ident {L n : Nat} {rnd : Nat → ℝ} {θ : String → Option ℝ} {s s' : Context × U64} {f : Option Fault} :
    lineStep L n rnd θ (none, .inl (.det .ident)) s s' f ↔ s' = s ∧ f = none := by
  have e : Item.operandMask (.inl (.det .ident)) = 0#64 := rfl
  obtain ⟨⟨ψ, reg, pos⟩, m⟩ := s
  obtain ⟨⟨ψ', reg', pos'⟩, m'⟩ := s'
  show Item.RunsOn L n rnd θ (.inl (.det .ident)) _ _ f ↔ _
  unfold Item.RunsOn
  rw [e, if_neg (by simp)]
  show ((f = none ∧ reg' = reg ∧ pos' = pos ∧ ψ' = ψ) ∧ m' = if f = none then m ||| 0#64 else m) ↔ _
  constructor
  · rintro ⟨⟨rfl, rfl, rfl, rfl⟩, h⟩
    simp at h
    subst h
    exact ⟨rfl, rfl⟩
  · rintro ⟨h, rfl⟩
    cases h
    simp

theorem seqRun_noConds {L n : Nat} {rnd : Nat → ℝ} {θ : String → Option ℝ} (gs : List Item) {s s' : Context × U64} {f : Option Fault} :
    SeqRun (lineStep L n rnd θ) ((gs.map fun _ => none).zip gs) s s' f ↔ SeqRun (fun g => lineStep L n rnd θ (none, g)) gs s s' f := by
  refine seqRun_congr ?_
  induction gs with
  | nil => exact .nil
  | cons g gs ih => exact .cons (fun _ _ _ => Iff.rfl) ih

theorem checkKeys_filter {α : Type} (θ : String → Option α) (gs : List Item) : checkKeys θ (gs.filter keep) = checkKeys θ gs := by
  induction gs with
  | nil => rfl
  | cons g gs ih =>
    cases hk : keep g with
    | true =>
      rw [List.filter_cons_of_pos hk]
      rcases g with g | ⟨p, k⟩
      · exact ih
      · unfold checkKeys
        rw [ih]
    | false =>
      rw [List.filter_cons_of_neg (by simp [hk]), ih, keep_false hk]
      rfl

theorem checkKeysBatched_filter (B : Nat) (θ : String → Option (List ℝ)) (gs : List Item) :
    checkKeysBatched B θ (gs.filter keep) = checkKeysBatched B θ gs := by
  induction gs with
  | nil => rfl
  | cons g gs ih =>
    cases hk : keep g with
    | true =>
      rw [List.filter_cons_of_pos hk]
      rcases g with g | ⟨p, k⟩
      · exact ih
      · unfold checkKeysBatched
        rw [ih]
    | false =>
      rw [List.filter_cons_of_neg (by simp [hk]), ih, keep_false hk]
      rfl

theorem required_filter (gs : List Item) (c1 c2 : List (Option Condition)) :
    Circuit.requiredQubits ⟨gs.filter keep, c1⟩ = Circuit.requiredQubits ⟨gs, c2⟩ := by
  unfold Circuit.requiredQubits
  congr 1
  dsimp only
  generalize (0 : U64) = m
  induction gs generalizing m with
  | nil => rfl
  | cons g gs ih =>
    cases hk : keep g with
    | true => rw [List.filter_cons_of_pos hk, List.foldl_cons, List.foldl_cons, ih]
    | false =>
      rw [List.filter_cons_of_neg (by simp [hk]), ih, List.foldl_cons, keep_false hk]
      congr 1
      show m = m ||| 0#64
      simp

/-- a circuit without conditions -/
def noConds (gs : List Item) : Circuit := ⟨gs, gs.map fun _ => none⟩

theorem check_filter (n : Nat) (θ : String → Option ℝ) (gs : List Item) :
    (noConds (gs.filter keep)).check n θ = (noConds gs).check n θ := by
  unfold Circuit.check Circuit.checkQubits noConds
  rw [required_filter gs _ (gs.map fun _ => none)]
  dsimp only
  rw [checkKeys_filter]

/-- **leaving out identity gates does not change what a circuit does** -/
theorem runsOn_filter {L n : Nat} {rnd : Nat → ℝ} {θ : String → Option ℝ} (gs : List Item) {ψ : U64 → ℂ} {reg : List Bool} {c' : Context}
    {f : Option Fault} : (noConds (gs.filter keep)).RunsOn L n rnd θ ψ reg c' f ↔ (noConds gs).RunsOn L n rnd θ ψ reg c' f := by
  unfold Circuit.RunsOn
  rw [check_filter]
  split
  · rfl
  refine exists_congr fun mask => ?_
  rw [circuit_loop (by simp [noConds]), circuit_loop (by simp [noConds])]
  unfold noConds
  dsimp only
  rw [seqRun_noConds, seqRun_noConds]
  refine seqRun_filter _ ?_ _ _ _ _
  intro g s s' f hk
  rw [keep_false hk]
  exact lineStep_ident

/-! ## batches -/

theorem itemB_ident {L B n : Nat} {rnd : Nat → ℝ} {θ : String → Option (List ℝ)} {s s' : BContext × U64} {f : Option Fault} :
    Item.RunsBatched L B n rnd θ (.inl (.det .ident)) s s' f ↔ s' = s ∧ f = none := by
  have e : Item.operandMask (.inl (.det .ident)) = 0#64 := rfl
  obtain ⟨⟨ψ, reg, pos⟩, m⟩ := s
  obtain ⟨⟨ψ', reg', pos'⟩, m'⟩ := s'
  unfold Item.RunsBatched
  rw [e, if_neg (by simp)]
  show ((f = none ∧ reg' = reg ∧ pos' = pos ∧ ψ' = ψ) ∧ m' = if f = none then m ||| 0#64 else m) ↔ _
  constructor
  · rintro ⟨⟨rfl, rfl, rfl, rfl⟩, h⟩
    simp at h
    subst h
    exact ⟨rfl, rfl⟩
  · rintro ⟨h, rfl⟩
    cases h
    simp

theorem stepB_noConds {L B n : Nat} {rnd : Nat → ℝ} {θ : String → Option (List ℝ)} (gs : List Item) {s s' : BContext × U64}
    {f : Option Fault} : SeqRun ((noConds gs).StepBatched L B n rnd θ) (List.range (noConds gs).gates.length) s s' f ↔
      SeqRun (fun g => Item.RunsBatched L B n rnd θ g) gs s s' f := by
  refine seqRun_congr (forall2_range _ _ rfl _ fun i hi c c' f => ?_)
  have hi : i < gs.length := hi
  unfold Circuit.StepBatched noConds
  dsimp only
  rw [List.getElem?_eq_getElem (by simpa using hi), List.getElem?_eq_getElem hi]
  simp only [List.getElem_map]
  exact Iff.rfl

/-- **leaving out identity gates does not change what a circuit does to a batch** -/
theorem runsBatched_filter {L B n : Nat} {rnd : Nat → ℝ} {θ : String → Option (List ℝ)} (gs : List Item) {ψ : U64 → ℂ} {reg : BReg}
    {c' : BContext} {f : Option Fault} :
    (noConds (gs.filter keep)).RunsBatched L B n rnd θ ψ reg c' f ↔ (noConds gs).RunsBatched L B n rnd θ ψ reg c' f := by
  have hcheck : (noConds (gs.filter keep)).checkBatched B n reg θ = (noConds gs).checkBatched B n reg θ := by
    unfold Circuit.checkBatched Circuit.checkQubits noConds
    rw [required_filter gs _ (gs.map fun _ => none)]
    dsimp only
    rw [checkKeysBatched_filter]
  unfold Circuit.RunsBatched
  rw [hcheck]
  split
  · rfl
  refine exists_congr fun mask => ?_
  rw [stepB_noConds, stepB_noConds]
  refine seqRun_filter _ ?_ _ _ _ _
  intro g s s' f hk
  rw [keep_false hk]
  exact itemB_ident

end Verif.Proofs
