import Verif.Proofs.Json

/-! # JSON: gates of every class, parametric gates, circuits -/

namespace Verif.Proofs
open Verif Verif.Spec Verif.Model
attribute [-simp] BitVec.getLsbD_eq_getElem

theorem mapM_attach {α β : Type} (f : α → Res β) (l : List α) : (l.attach.mapM fun x => f x.1) = l.mapM f := by
  conv_rhs => rw [← List.attach_map_subtype_val l, List.mapM_map]
  rfl

/-- the invariant of gate objects of any class -/
def GateFit : Gate → Prop
  | .det u => Stored u
  | .prob t => TableFit t Stored
  | .meas g => ∃ t, g.o = ⟨t, 0, 0⟩

/-- every class that occurs has a reader -/
def GateHasReader : Gate → Prop
  | .det u => HasReader u
  | .prob t => ∀ u ∈ t.gates, HasReader u
  | .meas _ => True

/-- reading a probabilistic gate whose entries are known -/
theorem prob_ofJson {j : Json} {l : List Json} {dist : List ℝ} {gs : List Gate} (h1 : j.typeName = .ok (t! "Probabilistic"))
    (h2 : j.distribution = .ok dist) (h3 : j.gateArray = .ok l) (h4 : l.mapM Gate.ofJson = .ok gs) :
    Gate.ofJson j = mkProbabilistic (dist.map some) gs := by
  rw [Gate.ofJson.eq_1, h1]
  dsimp only
  rw [if_neg (by decide), if_pos rfl, h2, ok_bind]
  split
  · rename_i h
    rw [h3] at h
    cases h
  · rename_i l' h
    rw [h3] at h
    cases h
    rw [mapM_attach, h4, ok_bind]

theorem meas_back {g : MeasGate} (h : ∃ t, g.o = ⟨t, 0, 0⟩) : Gate.ofJson g.toJson = .ok (.meas g) := by
  obtain ⟨t, ht⟩ := h
  rw [Gate.ofJson.eq_1]
  have h1 : g.toJson.typeName = .ok (t! "Measurement") := rfl
  rw [h1]
  dsimp only
  rw [if_pos rfl]
  have h2 : readMeasurement g.toJson = .ok g := by
    unfold readMeasurement
    dsimp only
    rw [if_pos (show g.toJson.contains (t! "reset") = true from rfl), show g.toJson.at (t! "reset") = .ok (.bool g.reset) from rfl, ok_bind,
      show (Json.bool g.reset).asBool = .ok g.reset from rfl, ok_bind, uints_of (l := maskToVector g.o.t) rfl, ok_bind,
      vectorToMask_maskToVector, ok_bind, show g.toJson.at (t! "classical_bit") = .ok (.uint g.cbit) from rfl, ok_bind,
      show (Json.uint g.cbit).asUInt = .ok g.cbit from rfl, ok_bind]
    have e : gateBase g.o.t 0 0 = .ok g.o := by
      unfold gateBase
      rw [if_neg (by simp), ht]
    rw [e]
    rfl
  rw [h2]
  rfl

/-- writing and reading a gate -/
theorem gate_back {g : Gate} (hf : GateFit g) (hr : GateHasReader g) : ∃ j, g.toJson = .ok j ∧ Gate.ofJson j = .ok g ∧
    ∃ type, j.typeName = .ok type ∧ (t! "Param").isPrefixOf type = false := by
  cases g with
  | det u => exact det_back hf hr
  | meas g => exact ⟨_, rfl, meas_back hf, _, rfl, rfl⟩
  | prob t =>
    have hb : ∀ u : UGate, ∃ j, u ∈ t.gates → u.toJson = .ok j ∧ Gate.ofJson j = .ok (.det u) := by
      intro u
      by_cases hu : u ∈ t.gates
      · obtain ⟨j, h1, h2, -⟩ := det_back (TableFit.all hf u hu) (hr u hu)
        exact ⟨j, fun _ => ⟨h1, h2⟩⟩
      · exact ⟨.null, fun h => absurd h hu⟩
    choose f hf2 using hb
    refine ⟨.obj (typeField (t! "Probabilistic") ++ [(t! "gate_list", .arr (t.gates.map f)), (t! "distribution", Json.ofReals t.dist)]), ?_, ?_,
      _, rfl, rfl⟩
    · unfold Gate.toJson
      dsimp only
      rw [mapM_all_ok t.gates fun u hu => (hf2 u hu).1]
      rfl
    · rw [prob_ofJson (l := t.gates.map f) (gs := t.gates.map .det) rfl (distribution_of rfl) rfl]
      · unfold mkProbabilistic
        rw [List.map_map]
        have := table_back hf
        rw [show (Gate.component ∘ Gate.det) = Component.leaf from rfl, this]
        rfl
      · rw [List.mapM_map]
        exact mapM_all_ok t.gates fun u hu => (hf2 u hu).2

/-! ## parametric gates -/

/-- the invariant of rotation objects -/
def RotFit : PRot → Prop
  | .axis _ o _ => OperandsOK o
  | .pauli g _ => OperandsOK g.o ∧ g.o.t = g.p.x ||| g.p.z

def LeafFit : PLeaf → Prop
  | .fixed g => Stored g
  | .rot r => RotFit r

def PGateFit : PGate → Prop
  | .rot r => RotFit r
  | .prob t => TableFit t LeafFit

def LeafHasReader : PLeaf → Prop
  | .fixed g => HasReader g
  | .rot _ => True

def PGateHasReader : PGate → Prop
  | .rot _ => True
  | .prob t => ∀ u ∈ t.gates, LeafHasReader u

theorem rot_back {r : PRot} (h : RotFit r) : ∃ j, r.toJson = .ok j ∧ PGate.ofJson j = .ok (.rot r) ∧
    ∃ type, j.typeName = .ok type ∧ (t! "Param").isPrefixOf type = true := by
  cases r with
  | axis a o k =>
    have ho : OperandsOK o := h
    have hread : ∀ a : RotAxis, readAxis a (.obj (typeField (axisName a) ++ targetField o ++ controlFields o ++ [(t! "param_coef", .real k)])) =
        .ok (.rot (.axis a o k)) := by
      intro a
      unfold readAxis
      have hm : (Json.obj (typeField (axisName a) ++ targetField o ++ controlFields o ++ [(t! "param_coef", .real k)])).masks = .ok (o.t, o.c, o.v) :=
        masks_of ho rfl rfl rfl
      rw [hm, ok_bind, number_of rfl, ok_bind]
      dsimp only
      rw [gateBase_self ho]
      rfl
    refine ⟨_, rfl, ?_, axisName a, rfl, by cases a <;> rfl⟩
    rw [PGate.ofJson.eq_1]
    have ht : (Json.obj (typeField (axisName a) ++ targetField o ++ controlFields o ++ [(t! "param_coef", .real k)])).typeName =
      .ok (axisName a) := rfl
    rw [ht]
    cases a
    · exact hread .X
    · exact hread .Y
    · exact hread .Z
  | pauli g k =>
    obtain ⟨ho, ht⟩ := h
    obtain ⟨p, h1, h2⟩ := pauli_back g.p
    refine ⟨.obj (typeField (t! "ParamPauliRotation") ++ controlFields g.o ++ [(t! "pauli", p), (t! "param_coef", .real k)]), ?_, ?_, _, rfl, rfl⟩
    · unfold PRot.toJson
      dsimp only
      rw [h1]
      rfl
    · rw [PGate.ofJson.eq_1]
      have hread : readParamPauli (.obj (typeField (t! "ParamPauliRotation") ++ controlFields g.o ++ [(t! "pauli", p), (t! "param_coef", .real k)])) =
          .ok (.rot (.pauli g k)) := by
        unfold readParamPauli
        rw [controlMasks_of ho rfl rfl, ok_bind, show Json.at _ (t! "pauli") = .ok p from rfl, ok_bind, h2, ok_bind, number_of rfl, ok_bind]
        dsimp only
        rw [pauliCtor_of ho ht]
        rfl
      exact hread

/-- how an entry of the gate list is read -/
noncomputable def readEither (x : Json) : Res (Gate ⊕ PGate) := do
  let name ← x.typeName
  if (t! "Param").isPrefixOf name then do
    let g ← PGate.ofJson x
    pure (.inr g)
  else do
    let g ← Gate.ofJson x
    pure (.inl g)

theorem pprob_ofJson {j a : Json} {dist : List ℝ} {gs : List (Gate ⊕ PGate)} (h1 : j.typeName = .ok (t! "ParamProbabilistic"))
    (h2 : j.distribution = .ok dist) (h3 : j.at (t! "gate_list") = .ok a) (h4 : a.items.mapM readEither = .ok gs) :
    PGate.ofJson j = mkParamProbabilistic (dist.map some) gs := by
  rw [PGate.ofJson.eq_1, h1]
  dsimp only
  rw [if_neg (by decide), if_neg (by decide), if_neg (by decide), if_neg (by decide), if_pos rfl, h2, ok_bind]
  split
  · rename_i h
    rw [h3] at h
    cases h
  · rename_i l' h
    rw [h3] at h
    cases h
    have := mapM_attach readEither a.items
    rw [h4] at this
    unfold readEither at this
    rw [this, ok_bind]

/-- an entry of a table as a gate -/
def leafGate : PLeaf → Gate ⊕ PGate
  | .fixed g => .inl (.det g)
  | .rot r => .inr (.rot r)

theorem leaf_back {u : PLeaf} (hf : LeafFit u) (hr : LeafHasReader u) : ∃ j, u.toJson = .ok j ∧ readEither j = .ok (leafGate u) := by
  cases u with
  | fixed g =>
    obtain ⟨j, h1, h2, type, h3, h4⟩ := det_back hf hr
    refine ⟨j, h1, ?_⟩
    unfold readEither
    rw [h3, ok_bind, h4, if_neg (by decide), h2]
    rfl
  | rot r =>
    obtain ⟨j, h1, h2, type, h3, h4⟩ := rot_back hf
    refine ⟨j, h1, ?_⟩
    unfold readEither
    rw [h3, ok_bind, h4, if_pos rfl, h2]
    rfl

/-- writing and reading a parametric gate -/
theorem pgate_back {g : PGate} (hf : PGateFit g) (hr : PGateHasReader g) : ∃ j, g.toJson = .ok j ∧ PGate.ofJson j = .ok g := by
  cases g with
  | rot r =>
    obtain ⟨j, h1, h2, -⟩ := rot_back hf
    exact ⟨j, h1, h2⟩
  | prob t =>
    have hb : ∀ u : PLeaf, ∃ j, u ∈ t.gates → u.toJson = .ok j ∧ readEither j = .ok (leafGate u) := by
      intro u
      by_cases hu : u ∈ t.gates
      · obtain ⟨j, h1, h2⟩ := leaf_back (TableFit.all hf u hu) (hr u hu)
        exact ⟨j, fun _ => ⟨h1, h2⟩⟩
      · exact ⟨.null, fun h => absurd h hu⟩
    choose f hf2 using hb
    refine ⟨.obj (typeField (t! "ParamProbabilistic") ++ [(t! "gate_list", .arr (t.gates.map f)), (t! "distribution", Json.ofReals t.dist)]), ?_, ?_⟩
    · unfold PGate.toJson
      dsimp only
      rw [mapM_all_ok t.gates fun u hu => (hf2 u hu).1]
      rfl
    · rw [pprob_ofJson (a := .arr (t.gates.map f)) (gs := t.gates.map leafGate) rfl (distribution_of rfl) rfl]
      · unfold mkParamProbabilistic
        rw [List.map_map]
        have := table_back hf
        rw [show (eitherComponent ∘ leafGate) = Component.leaf from funext fun u => by cases u <;> rfl, this]
        rfl
      · rw [Json.items, List.mapM_map]
        exact mapM_all_ok t.gates fun u hu => (hf2 u hu).2

/-! ## circuits -/

def ItemFit : Item → Prop
  | .inl g => GateFit g
  | .inr (p, _) => PGateFit p

def ItemHasReader : Item → Prop
  | .inl g => GateHasReader g
  | .inr (p, _) => PGateHasReader p

theorem entry_back {g : Item} (hf : ItemFit g) (hr : ItemHasReader g) :
    ∃ j, entryToJson (g, none) = .ok j ∧ ∀ C : Circuit, addFromJson C j = .ok ⟨C.gates ++ [g], C.conds ++ [none]⟩ := by
  rcases g with g | ⟨p, key⟩
  · obtain ⟨j, h1, h2, -⟩ := gate_back hf hr
    refine ⟨.obj [(t! "gate", j)], ?_, fun C => ?_⟩
    · unfold entryToJson
      dsimp only
      rw [h1]
      rfl
    · unfold addFromJson
      rw [if_neg (show ¬ (Json.obj [(t! "gate", j)]).contains (t! "key") = true from Bool.false_ne_true), show Json.at _ (t! "gate") = .ok j from rfl, ok_bind, h2]
      rfl
  · obtain ⟨j, h1, h2⟩ := pgate_back hf hr
    refine ⟨.obj [(t! "gate", j), (t! "key", .str key.toList)], ?_, fun C => ?_⟩
    · unfold entryToJson
      dsimp only
      rw [h1]
      rfl
    · unfold addFromJson
      rw [if_pos (show (Json.obj [(t! "gate", j), (t! "key", .str key.toList)]).contains (t! "key") = true from rfl), show Json.at _ (t! "gate") = .ok j from rfl, ok_bind, h2, ok_bind,
        show Json.at _ (t! "key") = .ok (.str key.toList) from rfl, ok_bind, show (Json.str key.toList).asText = .ok key.toList from rfl, ok_bind,
        String.ofList_toList]
      rfl

theorem fold_back {l : List Json} {gs : List Item}
    (h : List.Forall₂ (fun g j => ∀ C : Circuit, addFromJson C j = .ok ⟨C.gates ++ [g], C.conds ++ [none]⟩) gs l) (C : Circuit) :
    l.foldlM addFromJson C = .ok ⟨C.gates ++ gs, C.conds ++ List.replicate gs.length none⟩ := by
  induction h generalizing C with
  | nil => simp; rfl
  | cons h _ ih =>
    rw [List.foldlM_cons, h C, ok_bind, ih]
    simp [List.replicate_succ]

/-- writing and reading a circuit without conditions -/
theorem circuit_back {gs : List Item} (hf : ∀ g ∈ gs, ItemFit g) (hr : ∀ g ∈ gs, ItemHasReader g) :
    ∃ j, Circuit.toJson ⟨gs, List.replicate gs.length none⟩ = .ok j ∧ Circuit.ofJson j = .ok ⟨gs, List.replicate gs.length none⟩ := by
  have hl : ∃ l, (gs.zip (List.replicate gs.length none)).mapM entryToJson = .ok l ∧
      List.Forall₂ (fun g j => ∀ C : Circuit, addFromJson C j = .ok ⟨C.gates ++ [g], C.conds ++ [none]⟩) gs l := by
    clear * - hf hr
    induction gs with
    | nil => exact ⟨[], rfl, .nil⟩
    | cons g gs ih =>
      obtain ⟨l, h1, h2⟩ := ih (fun x hx => hf x (List.mem_cons_of_mem _ hx)) (fun x hx => hr x (List.mem_cons_of_mem _ hx))
      obtain ⟨j, h3, h4⟩ := entry_back (hf g (List.mem_cons_self ..)) (hr g (List.mem_cons_self ..))
      refine ⟨j :: l, ?_, .cons h4 h2⟩
      rw [List.length_cons, List.replicate_succ, List.zip_cons_cons, List.mapM_cons, h3, ok_bind, h1, ok_bind]
      rfl
  obtain ⟨l, h1, h2⟩ := hl
  refine ⟨.obj [(t! "gate_list", .arr l)], ?_, ?_⟩
  · unfold Circuit.toJson
    rw [if_pos (by simp)]
    dsimp only
    rw [h1]
    rfl
  · unfold Circuit.ofJson
    rw [show Json.at _ (t! "gate_list") = .ok (.arr l) from rfl, ok_bind]
    have := fold_back h2 Circuit.empty
    simpa [Circuit.empty, Json.items] using this

end Verif.Proofs
