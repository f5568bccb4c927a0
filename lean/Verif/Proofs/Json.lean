import Verif.Model.Json
import Verif.Proofs.CircuitInverse
import Verif.Proofs.PauliText
import Verif.Proofs.Prob
import Verif.Proofs.QasmRound

/-! # JSON: what is written is read back -/

namespace Verif.Proofs
open Verif Verif.Spec Verif.Model
attribute [-simp] BitVec.getLsbD_eq_getElem

theorem mapM_all_ok {α β : Type} {f : α → Res β} {g : α → β} (l : List α) (h : ∀ x ∈ l, f x = .ok (g x)) :
    l.mapM f = .ok (l.map g) := by
  induction l with
  | nil => rfl
  | cons x l ih =>
    rw [List.mapM_cons, h x (List.mem_cons_self ..), ok_bind, ih fun y hy => h y (List.mem_cons_of_mem _ hy), ok_bind]
    rfl

theorem asUInt_list (l : List Nat) : (l.map Json.uint).mapM Json.asUInt = .ok l := by
  have := mapM_all_ok (f := fun n => Json.asUInt (Json.uint n)) (g := id) l fun x _ => rfl
  rw [List.mapM_map]
  rw [List.map_id] at this
  exact this

theorem asReal_list (l : List ℝ) : (l.map Json.real).mapM Json.asReal = .ok l := by
  have := mapM_all_ok (f := fun n => Json.asReal (Json.real n)) (g := id) l fun x _ => rfl
  rw [List.mapM_map]
  rw [List.map_id] at this
  exact this

theorem uints_of {j : Json} {key : Text} {l : List Nat} (h : j.at key = .ok (Json.ofList l)) : j.uints key = .ok l := by
  unfold Json.uints
  rw [h, ok_bind]
  unfold Json.ofList Json.asArray
  rw [ok_bind]
  exact asUInt_list l

theorem number_of {j : Json} {key : Text} {x : ℝ} (h : j.at key = .ok (.real x)) : j.number key = .ok x := by
  unfold Json.number
  rw [h]
  rfl

theorem distribution_of {j : Json} {l : List ℝ} (h : j.at (t! "distribution") = .ok (Json.ofReals l)) : j.distribution = .ok l := by
  unfold Json.distribution
  rw [h, ok_bind]
  unfold Json.ofReals Json.asArray
  rw [ok_bind]
  exact asReal_list l

theorem complex_back (z : ℂ) : complexOfJson (complexToJson z) = .ok z := rfl

theorem pauli_back (p : PauliOp) : ∃ j, p.toJson = .ok j ∧ PauliOp.ofJson j = .ok p := by
  obtain ⟨s, h1, h2⟩ := string_roundTrip p
  refine ⟨.obj [(t! "pauli_string", .str s), (t! "coef", complexToJson p.coef)], ?_, h2⟩
  unfold PauliOp.toJson
  rw [h1]
  rfl

/-- the control values of an object -/
theorem vectorToMask2_self {o : Operands} (ho : OperandsOK o) : vectorToMask2 (maskToVector o.c) (maskToVector2 o.c o.v) 0 = .ok o.v := by
  have h := mkOperands_self ho
  unfold mkOperands at h
  obtain ⟨vs, h1, h⟩ := bind_ok h
  obtain ⟨t, h2, h⟩ := bind_ok h
  obtain ⟨c, h3, h⟩ := bind_ok h
  obtain ⟨v, h4, h⟩ := bind_ok h
  have e : vs = maskToVector2 o.c o.v := by
    unfold resizeAndCheckControlValues at h1
    by_cases h5 : (maskToVector2 o.c o.v).isEmpty
    · have h6 : maskToVector o.c = [] := List.map_eq_nil_iff.1 (List.isEmpty_iff.1 h5)
      rw [if_pos h5, h6] at h1
      rw [List.isEmpty_iff.1 h5]
      exact (Except.ok.inj h1).symm
    · rw [if_neg h5, if_neg (by simp [maskToVector2])] at h1
      exact (Except.ok.inj h1).symm
  have e2 : v = o.v := by
    unfold gateBase at h
    split at h
    · cases h
    · injection h with h
      rw [← h]
  rw [← e, ← e2]
  exact h4

theorem gateBase_self {o : Operands} (ho : OperandsOK o) : gateBase o.t o.c o.v = .ok o := by
  unfold gateBase
  rw [if_neg (by simpa using ho.disj)]

theorem masks_of {j : Json} {o : Operands} (ho : OperandsOK o) (h1 : j.at (t! "target") = .ok (Json.ofList (maskToVector o.t)))
    (h2 : j.at (t! "control") = .ok (Json.ofList (maskToVector o.c)))
    (h3 : j.at (t! "control_value") = .ok (Json.ofList (maskToVector2 o.c o.v))) : j.masks = .ok (o.t, o.c, o.v) := by
  unfold Json.masks
  rw [uints_of h2, ok_bind, uints_of h3, ok_bind, uints_of h1, ok_bind, vectorToMask_maskToVector, ok_bind, vectorToMask_maskToVector,
    ok_bind, vectorToMask2_self ho]
  rfl

theorem controlMasks_of {j : Json} {o : Operands} (ho : OperandsOK o)
    (h2 : j.at (t! "control") = .ok (Json.ofList (maskToVector o.c)))
    (h3 : j.at (t! "control_value") = .ok (Json.ofList (maskToVector2 o.c o.v))) : j.controlMasks = .ok (o.c, o.v) := by
  unfold Json.controlMasks
  rw [uints_of h2, ok_bind, uints_of h3, ok_bind, vectorToMask_maskToVector, ok_bind, vectorToMask2_self ho]
  rfl

/-- the invariant of gate objects that the JSON form relies on -/
def Stored : UGate → Prop
  | .ident => True
  | .globalPhase _ o => OperandsOK o ∧ o.t = 0
  | .one _ o => OperandsOK o
  | .swap o => OperandsOK o
  | .ecr g => OperandsOK g.o
  | .perm g => permCtor g.dst = .ok g
  | .dense _ => True
  | .sparse _ => True
  | .pauli g => OperandsOK g.o ∧ g.o.t = g.p.x ||| g.p.z
  | .pauliRot g _ => OperandsOK g.o ∧ g.o.t = g.p.x ||| g.p.z

/-- the classes with a branch in `from_json` -/
def HasReader : UGate → Prop
  | .one .P0 _ => False
  | .one .P1 _ => False
  | .dense _ => False
  | .sparse _ => False
  | _ => True

theorem readPlain_of {k : Gate1} {j : Json} {o : Operands} (ho : OperandsOK o) (h : j.masks = .ok (o.t, o.c, o.v)) :
    readPlain k j = .ok (.one k o) := by
  unfold readPlain
  rw [h, ok_bind]
  dsimp only
  rw [gateBase_self ho]
  rfl

theorem readAngles_of {k : List ℝ → Option Gate1} {g : Gate1} {keys : List Text} {as : List ℝ} {j : Json} {o : Operands} (ho : OperandsOK o)
    (h : j.masks = .ok (o.t, o.c, o.v)) (ha : keys.mapM j.number = .ok as) (hg : k as = some g) : readAngles k keys j = .ok (.one g o) := by
  unfold readAngles
  rw [h, ok_bind, ha, ok_bind]
  dsimp only
  rw [gateBase_self ho, ok_bind, hg]
  rfl

theorem pauliCtor_of {g : PauliGate} (ho : OperandsOK g.o) (ht : g.o.t = g.p.x ||| g.p.z) : pauliCtor g.o.c g.o.v g.p = .ok g := by
  unfold pauliCtor
  rw [← ht, gateBase_self ho]
  rfl

/-- writing and reading a gate without randomness -/
theorem ugate_back_json {g : UGate} (hs : Stored g) (hr : HasReader g) :
    ∃ j, g.toJson = .ok j ∧ ∃ type, j.typeName = .ok type ∧ type ≠ t! "Measurement" ∧ type ≠ t! "Probabilistic" ∧
      (t! "Param").isPrefixOf type = false ∧ readUGate type j = some (.ok g) := by
  cases g with
  | ident => exact ⟨_, rfl, _, rfl, by decide, by decide, rfl, rfl⟩
  | globalPhase phase o =>
    obtain ⟨ho, ht⟩ := hs
    refine ⟨_, rfl, _, rfl, by decide, by decide, rfl, congrArg some ?_⟩
    unfold readGlobalPhase
    rw [controlMasks_of ho rfl rfl, ok_bind, number_of rfl, ok_bind]
    dsimp only
    rw [← ht, gateBase_self ho]
    rfl
  | one k o =>
    have hm := fun (j : Json) h1 h2 h3 => masks_of (j := j) (show OperandsOK o from hs) h1 h2 h3
    cases k with
    | P0 => exact absurd hr id
    | P1 => exact absurd hr id
    | RX a | RY a | RZ a | U1 a =>
      refine ⟨_, rfl, _, rfl, by simp [gate1Name], by simp [gate1Name], rfl, congrArg some ?_⟩
      exact readAngles_of hs (hm _ rfl rfl rfl) (as := [a]) rfl rfl
    | U2 a b =>
      refine ⟨_, rfl, _, rfl, by simp [gate1Name], by simp [gate1Name], rfl, congrArg some ?_⟩
      exact readAngles_of hs (hm _ rfl rfl rfl) (as := [a, b]) rfl rfl
    | U3 a b c =>
      refine ⟨_, rfl, _, rfl, by simp [gate1Name], by simp [gate1Name], rfl, congrArg some ?_⟩
      exact readAngles_of hs (hm _ rfl rfl rfl) (as := [a, b, c]) rfl rfl
    | _ =>
      refine ⟨_, rfl, _, rfl, by simp [gate1Name], by simp [gate1Name], rfl, congrArg some ?_⟩
      exact readPlain_of hs (hm _ rfl rfl rfl)
  | swap o =>
    refine ⟨_, rfl, _, rfl, by decide, by decide, rfl, congrArg some ?_⟩
    unfold readSwap
    rw [masks_of (show OperandsOK o from hs) rfl rfl rfl, ok_bind]
    dsimp only
    rw [gateBase_self hs]
    rfl
  | ecr g =>
    refine ⟨_, rfl, _, rfl, by decide, by decide, rfl, congrArg some ?_⟩
    unfold readEcr
    rw [masks_of (show OperandsOK g.o from hs) rfl rfl rfl, ok_bind, uints_of rfl, ok_bind, vectorToMask_maskToVector, ok_bind,
      uints_of rfl, ok_bind, vectorToMask_maskToVector, ok_bind]
    dsimp only
    rw [gateBase_self hs]
    rfl
  | perm g =>
    refine ⟨_, rfl, _, rfl, by decide, by decide, rfl, congrArg some ?_⟩
    unfold readPermutation
    rw [uints_of rfl, ok_bind, show permCtor g.dst = .ok g from hs]
    rfl
  | dense g => exact absurd hr id
  | sparse g => exact absurd hr id
  | pauli g =>
    obtain ⟨ho, ht⟩ := hs
    obtain ⟨p, h1, h2⟩ := pauli_back g.p
    refine ⟨.obj (typeField (t! "Pauli") ++ controlFields g.o ++ [(t! "pauli", p)]), ?_, _, rfl, by decide, by decide, rfl, congrArg some ?_⟩
    · unfold UGate.toJson
      dsimp only
      rw [h1]
      rfl
    · unfold readPauli
      rw [controlMasks_of ho rfl rfl, ok_bind, show Json.at _ (t! "pauli") = .ok p from rfl, ok_bind, h2, ok_bind]
      dsimp only
      rw [pauliCtor_of ho ht]
      rfl
  | pauliRot g angle =>
    obtain ⟨ho, ht⟩ := hs
    obtain ⟨p, h1, h2⟩ := pauli_back g.p
    refine ⟨.obj (typeField (t! "PauliRotation") ++ controlFields g.o ++ [(t! "pauli", p), (t! "angle", .real angle)]), ?_, _, rfl, by decide,
      by decide, rfl, congrArg some ?_⟩
    · unfold UGate.toJson
      dsimp only
      rw [h1]
      rfl
    · unfold readPauliRotation
      rw [controlMasks_of ho rfl rfl, ok_bind, show Json.at _ (t! "pauli") = .ok p from rfl, ok_bind, h2, ok_bind, number_of rfl, ok_bind]
      dsimp only
      rw [pauliCtor_of ho ht]
      rfl

theorem det_back {g : UGate} (hs : Stored g) (hr : HasReader g) : ∃ j, g.toJson = .ok j ∧ Gate.ofJson j = .ok (.det g) ∧
    ∃ type, j.typeName = .ok type ∧ (t! "Param").isPrefixOf type = false := by
  obtain ⟨j, h1, type, h2, h3, h4, h5, h6⟩ := ugate_back_json hs hr
  refine ⟨j, h1, ?_, type, h2, h5⟩
  unfold Gate.ofJson
  rw [h2]
  dsimp only
  rw [if_neg h3, if_neg h4, h6]
  rfl

/-! ## probabilistic gates -/

/-- the invariant of the tables of alternatives -/
structure TableFit {G : Type} (t : ProbTable G) (P : G → Prop) : Prop where
  ok : TableOK t
  le : ∀ p ∈ t.dist, p ≤ 1
  all : ∀ g ∈ t.gates, P g

def CompFit {G : Type} (P : G → Prop) : Component G → Prop
  | .leaf g => P g
  | .nested t => TableFit t P
  | .measurement => True

/-- a table is rebuilt from its lists -/
theorem table_back {G : Type} {t : ProbTable G} {P : G → Prop} (h : TableFit t P) :
    mkProbTable (t.dist.map some) (t.gates.map .leaf) = .ok t := by
  have hl := h.ok.len
  have h0 : t.dist ≠ [] := by
    intro e
    rw [e] at hl
    exact h.ok.pos (List.length_eq_zero_iff.1 hl.symm)
  rw [mkProbTable_some h0 (by simpa using hl) (fun p hp => ⟨h.ok.nonneg p hp, h.le p hp⟩) (by simp [CompOK]) (by simp), flatAll_leaf,
    List.map_fst_zip (le_of_eq hl), List.map_snd_zip (le_of_eq hl.symm), if_neg (not_lt.2 h.ok.sum), ← h.ok.cum]

theorem flatAll_mem {G : Type} {ps : List ℝ} {cs : List (Component G)} {P : G → Prop} (hp : ∀ p ∈ ps, 0 ≤ p ∧ p ≤ 1)
    (hc : ∀ c ∈ cs, CompFit P c) : ∀ x ∈ flatAll ps cs, x.1 ≤ 1 ∧ P x.2 := by
  intro x hx
  unfold flatAll at hx
  rw [List.mem_flatMap] at hx
  obtain ⟨⟨p, c⟩, hm, hx⟩ := hx
  have h1 := hp p (List.of_mem_zip hm).1
  have h2 := hc c (List.of_mem_zip hm).2
  dsimp only at hx
  cases c with
  | leaf g =>
    unfold flatOf at hx
    rw [List.mem_singleton] at hx
    rw [hx]
    exact ⟨h1.2, h2⟩
  | nested t =>
    unfold flatOf at hx
    rw [List.mem_map] at hx
    obtain ⟨y, hy, rfl⟩ := hx
    have h3 : TableFit t P := h2
    have h4 := h3.le _ (List.of_mem_zip hy).1
    exact ⟨mul_le_one₀ h1.2 (h3.ok.nonneg _ (List.of_mem_zip hy).1) h4, h3.all _ (List.of_mem_zip hy).2⟩
  | measurement => simp [flatOf] at hx

theorem table_fit {G : Type} {ds : List (Option ℝ)} {cs : List (Component G)} {t : ProbTable G} {P : G → Prop} (h : mkProbTable ds cs = .ok t)
    (hc : ∀ c ∈ cs, CompFit P c) : TableFit t P := by
  have hco : ∀ c ∈ cs, CompOK c := by
    intro c hm
    have := hc c hm
    cases c with
    | leaf => trivial
    | nested t => exact TableFit.ok this
    | measurement => trivial
  obtain ⟨ps, h1, h2, h3, h4, h5, h6, h7⟩ := ((mkProbTable_iff hco).1 t).1 h
  refine ⟨mkProbTable_tableOK hco h, ?_, ?_⟩
  · rw [h7]
    intro p hp
    obtain ⟨x, hx, rfl⟩ := List.mem_map.1 hp
    exact (flatAll_mem h4 hc x hx).1
  · rw [h7]
    intro p hp
    obtain ⟨x, hx, rfl⟩ := List.mem_map.1 hp
    exact (flatAll_mem h4 hc x hx).2

end Verif.Proofs
