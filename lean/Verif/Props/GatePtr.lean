import Verif.Model.GatePtr

/-! # C81: handles of gates -/

namespace Verif.Props
open Verif Verif.Model

variable {C Ty α : Type} [DecidableEq C] [DecidableEq Ty]

/-- a `std::shared_ptr<const U>`: if `U` is an implementation class, the object is of this class (C++ has no other conversions) -/
def SharedOK (U : Option C) (p : Option (HeapGate C α)) : Prop := ∀ c o, U = some c → p = some o → o.cls = c

/-- the handles that constructors and conversions make -/
inductive Obtained (F : GateFamily C Ty) : GatePtr C Ty α → Prop
  | null (T : Option C) : Obtained F (.null F T)
  | shared (T U : Option C) (p : Option (HeapGate C α)) (g : GatePtr C Ty α) : SharedOK U p → GatePtr.ofShared F T U p = .ok g → Obtained F g
  | convert (T : Option C) (g g' : GatePtr C Ty α) : Obtained F g → g.convert F T = .ok g' → Obtained F g'

/-- types of the classes other than the matrix gates belong to one class, and no class has the type `Unknown` -/
def Distinct (F : GateFamily C Ty) (c : C) : Prop := F.typeOf c ≠ F.unknown ∧ ∀ c', F.typeOf c' = F.typeOf c → c' = c

theorem distinct_gate (c : GateClass) : Distinct gateFamily c ↔ (∀ s, c ≠ .SparseMatrix s) ∧ ∀ s, c ≠ .DenseMatrix s := by
  constructor
  · rintro ⟨-, h⟩
    refine ⟨fun s e => ?_, fun s e => ?_⟩
    · subst e
      cases s
      · exact absurd (h (.SparseMatrix .HostSerial) rfl) (by simp)
      · exact absurd (h (.SparseMatrix .Host) rfl) (by simp)
      · exact absurd (h (.SparseMatrix .Host) rfl) (by simp)
    · subst e
      cases s
      · exact absurd (h (.DenseMatrix .HostSerial) rfl) (by simp)
      · exact absurd (h (.DenseMatrix .Host) rfl) (by simp)
      · exact absurd (h (.DenseMatrix .Host) rfl) (by simp)
  · rintro ⟨h1, h2⟩
    refine ⟨?_, fun c' h => ?_⟩
    · show c.type ≠ .Unknown
      cases c <;> simp [GateClass.type]
    · have h : c'.type = c.type := h
      cases c <;> first | exact absurd rfl (h1 _) | exact absurd rfl (h2 _) | (cases c' <;> first | rfl | cases h)

theorem distinct_param (c : ParamGateClass) : Distinct paramGateFamily c := by
  refine ⟨?_, fun c' h => ?_⟩
  · show c.type ≠ .Unknown
    cases c <;> simp [ParamGateClass.type]
  · have h : c'.type = c.type := h
    cases c <;> (cases c' <;> first | rfl | cases h)

/-- **C81 (what a handle says is true).** For every handle obtained by any constructors and conversions: if it holds an object, `gate_type()` is
`Unknown` or the type of the object's class; a handle of an implementation class holds nothing or an object of this class, and `gate_type()` says
so. -/
theorem C81_types {F : GateFamily C Ty} {g : GatePtr C Ty α} (h : Obtained F g) :
    (∀ o, g.ptr = some o → g.tag = F.unknown ∨ g.tag = F.typeOf o.cls) ∧
    ∀ c, g.static = some c → g.tag = F.typeOf c ∧ ∀ o, g.ptr = some o → o.cls = c := by
  induction h with
  | null T =>
    refine ⟨fun o h => (by cases h), fun c h => ⟨?_, fun o h => by cases h⟩⟩
    obtain rfl : T = some c := h
    rfl
  | shared T U p g hs hg =>
    unfold GatePtr.ofShared at hg
    split at hg
    · next e =>
      subst e
      cases hg
      refine ⟨fun o ho => ?_, fun c hc => ?_⟩
      · cases T with
        | none => exact .inl rfl
        | some c => exact .inr (by rw [hs c o rfl ho]; rfl)
      · obtain rfl : T = some c := hc
        exact ⟨rfl, fun o ho => hs c o rfl ho⟩
    · cases T with
      | none =>
        cases hg
        refine ⟨fun o ho => ?_, fun c hc => by cases hc⟩
        cases U with
        | none => exact .inl rfl
        | some c => exact .inr (by rw [hs c o rfl ho]; rfl)
      | some c =>
        cases p with
        | none => cases hg
        | some o =>
          dsimp only at hg
          split at hg
          · next e =>
            cases hg
            refine ⟨fun o' ho => ?_, fun c' hc => ?_⟩
            · cases ho; exact .inr (by rw [e])
            · cases hc; exact ⟨rfl, fun o' ho => by cases ho; exact e⟩
          · cases hg
  | convert T g g' _ hg ih =>
    unfold GatePtr.convert at hg
    split at hg
    · cases hg; exact ih
    · cases T with
      | none => cases hg; exact ⟨ih.1, fun c hc => by cases hc⟩
      | some c =>
        dsimp only at hg
        split at hg
        · cases hg
        · next e =>
          rw [not_not] at e
          split at hg
          · cases hg
            exact ⟨fun o ho => (by cases ho), fun c' hc => by cases hc; exact ⟨e, fun o ho => by cases ho⟩⟩
          · next o ho =>
            split at hg
            · next ec =>
              cases hg
              exact ⟨fun o' ho' => by cases ho'; exact .inr (by rw [ec]; exact e),
                fun c' hc => by cases hc; exact ⟨e, fun o' ho' => by cases ho'; exact ec⟩⟩
            · cases hg

/-- **C81 (conversions, partial).** Let a handle obtained by any constructors and conversions know the type of its object.  Conversion to a general
handle always succeeds.  Conversion to a class that shares its type with no other class succeeds exactly if the object is of this class and throws
otherwise.  The object and its type stay the same.  Missing: handles whose type is `Unknown` (`C81_inverse_counterexample`), the matrix gates of
different execution spaces (`C81_space_counterexample`). -/
theorem C81_cast_partial {F : GateFamily C Ty} {g : GatePtr C Ty α} (h : Obtained F g) {o : HeapGate C α} (ho : g.ptr = some o)
    (ht : g.tag ≠ F.unknown) :
    (∃ g', g.convert F none = .ok g' ∧ g'.ptr = some o ∧ g'.tag = g.tag) ∧
    ∀ c, Distinct F c → if o.cls = c then ∃ g', g.convert F (some c) = .ok g' ∧ g'.ptr = some o ∧ g'.tag = g.tag
      else ∃ m, g.convert F (some c) = .error (.throw m) := by
  obtain ⟨h1, h2⟩ := C81_types h
  have htag : g.tag = F.typeOf o.cls := (h1 o ho).resolve_left ht
  refine ⟨?_, fun c hc => ?_⟩
  · unfold GatePtr.convert
    split
    · exact ⟨g, rfl, ho, rfl⟩
    · exact ⟨_, rfl, ho, rfl⟩
  · by_cases he : o.cls = c
    · rw [if_pos he]
      unfold GatePtr.convert
      split
      · exact ⟨g, rfl, ho, rfl⟩
      · dsimp only
        rw [if_neg (by rw [htag, he]; exact fun h => h rfl), ho]
        dsimp only
        rw [if_pos he]
        exact ⟨_, rfl, rfl, rfl⟩
    · rw [if_neg he]
      unfold GatePtr.convert
      split
      · next e => exact absurd ((h2 c e.symm).2 o ho) he
      · dsimp only
        rw [if_pos (by rw [htag]; exact fun e => he (hc.2 _ e))]
        exact ⟨_, rfl⟩

/-- **C81 (factories).** The handle returned by a factory or read from JSON knows the type of its object; converted to the class of the object
it holds the same object. -/
theorem C81_created (F : GateFamily C Ty) (o : HeapGate C α) : ∃ g, GatePtr.create F o = .ok g ∧ Obtained F g ∧ g.tag = F.typeOf o.cls ∧
    g.deref = .ok o ∧ ∃ g', g.convert F (some o.cls) = .ok g' ∧ g'.deref = .ok o ∧ g'.tag = g.tag := by
  refine ⟨⟨none, some o, F.typeOf o.cls⟩, rfl, .shared none (some o.cls) (some o) _ ?_ rfl, rfl, rfl, ⟨some o.cls, some o, F.typeOf o.cls⟩, ?_, rfl, rfl⟩
  · rintro c o' ⟨⟩ ⟨⟩; rfl
  · show (if F.typeOf o.cls ≠ F.typeOf o.cls then _ else if o.cls = o.cls then _ else _) = _
    rw [if_neg (fun h => h rfl), if_pos rfl]

/-- **C81 (empty handles).** Using an empty handle throws; converting it to a general handle leaves it empty. -/
theorem C81_null (F : GateFamily C Ty) (T : Option C) : (∃ m, (GatePtr.null F T : GatePtr C Ty α).deref = .error (.throw m)) ∧
    ∃ g, (GatePtr.null F T : GatePtr C Ty α).convert F none = .ok g ∧ ∃ m, g.deref = .error (.throw m) := by
  refine ⟨⟨_, rfl⟩, ?_⟩
  cases T with
  | none => exact ⟨_, rfl, _, rfl⟩
  | some c => exact ⟨_, rfl, _, rfl⟩

/-- **C81 (counterexample: inverses).** The handle made of the inverse of a gate has the type `Unknown`: converting it to the class of its own object
throws, although the conversion of the bare `std::shared_ptr` succeeds. -/
theorem C81_inverse_counterexample (F : GateFamily C Ty) (inv : HeapGate C α) (hd : Distinct F inv.cls) : ∃ g, GatePtr.ofInverse F inv = .ok g ∧
    Obtained F g ∧ g.deref = .ok inv ∧ g.tag = F.unknown ∧ (∃ m, g.convert F (some inv.cls) = .error (.throw m)) ∧
    ∃ g', GatePtr.ofShared F (some inv.cls) none (some inv) = .ok g' ∧ g'.deref = .ok inv := by
  refine ⟨⟨none, some inv, F.unknown⟩, rfl, .shared none none (some inv) _ (by rintro c o ⟨⟩) rfl, rfl, rfl, ?_,
    ⟨some inv.cls, some inv, F.typeOf inv.cls⟩, ?_, rfl⟩
  · refine ⟨"invalid gate cast", ?_⟩
    show (if F.unknown ≠ F.typeOf inv.cls then _ else _) = _
    rw [if_pos (fun e => hd.1 e.symm)]
  · show (if inv.cls = inv.cls then _ else _) = _
    rw [if_pos rfl]

/-- **C81 (counterexample: execution spaces).** The dense matrix gates of two execution spaces have the same type: a gate made for one space converts
to a handle for the other without an exception, which is undefined behaviour as the object is of another class. -/
theorem C81_space_counterexample (data : α) : ∃ g, GatePtr.create gateFamily ⟨.DenseMatrix .Host, data⟩ = .ok g ∧ Obtained gateFamily g ∧
    ∃ m, g.convert gateFamily (some (.DenseMatrix .HostSerial)) = .error (.ub m) :=
  ⟨_, rfl, .shared none (some (.DenseMatrix .Host)) (some ⟨.DenseMatrix .Host, data⟩) _ (by rintro c o ⟨⟩ ⟨⟩; rfl) rfl, _, rfl⟩

/-! ## examples -/

/-- a handle of an X gate converted to its class and back -/
example : ∃ g : GatePtr GateClass GateType Nat, Obtained gateFamily g ∧ g.ptr = some ⟨.X, 3⟩ ∧ g.static = none ∧ g.tag = .X ∧
    g.tag ≠ gateFamily.unknown := by
  have h1 : Obtained gateFamily (⟨none, some ⟨.X, 3⟩, .X⟩ : GatePtr GateClass GateType Nat) :=
    .shared none (some .X) (some ⟨.X, 3⟩) _ (by rintro c o ⟨⟩ ⟨⟩; rfl) rfl
  have h2 : Obtained gateFamily (⟨some .X, some ⟨.X, 3⟩, .X⟩ : GatePtr GateClass GateType Nat) := .convert (some .X) _ _ h1 rfl
  exact ⟨⟨none, some ⟨.X, 3⟩, .X⟩, .convert none _ _ h2 rfl, rfl, rfl, rfl, by decide⟩

example : Distinct gateFamily .X ∧ Distinct gateFamily .Probabilistic ∧ ¬ Distinct gateFamily (.DenseMatrix .Host) ∧
    Distinct paramGateFamily .ParamPauliRotation := by
  refine ⟨(distinct_gate _).2 ⟨by simp, by simp⟩, (distinct_gate _).2 ⟨by simp, by simp⟩, fun h => ?_, distinct_param _⟩
  exact ((distinct_gate _).1 h).2 .Host rfl

end Verif.Props
