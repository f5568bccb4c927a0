import Verif.Proofs.JsonSaysBack

/-!
# C87: what the JSON readers read is what the JSON value says

`Spec/JsonSays.lean` says field by field, without reference to the readers, which gate or circuit a JSON value describes: types, targets, controls with
their values, angles, Pauli strings, distributions, nested gates, keys of parameters.  The gates are those the factory functions make from the fields.
-/

namespace Verif.Props
open Verif Verif.Spec Verif.Model Verif.Proofs

/-- **C87** (part).  A gate read from JSON is the gate the factory functions make from the fields of the value, for every value whose number of targets
fits its type; and conversely every value that describes a gate is read as that gate.  Missing: the readers do not check the number of targets
(`C87_counterexample_target`) and accept an object as list of gates (`C87_counterexample_object`). -/
theorem C87_gate_partial (j : Json) (g : Gate) : (GateSays j g → Gate.ofJson j = .ok g) ∧
    ((∀ x, PartOf j x → Arity x) → Gate.ofJson j = .ok g → GateSays j g) :=
  ⟨fun h => (gate_read_of h).1, fun h hg => gate_says j h hg⟩

/-- **C87** (part, parametric gates). -/
theorem C87_param_gate_partial (j : Json) (g : PGate) : (ParamSays j g → PGate.ofJson j = .ok g) ∧
    ((∀ x, PartOf j x → Arity x) → PGate.ofJson j = .ok g → ParamSays j g) :=
  ⟨fun h => (param_read_of h).1, fun h hg => param_says j h hg⟩

/-- **C87** (part, circuits).  The gates of a circuit are those of its entries, in their order, entries with a key being parametric. -/
theorem C87_circuit_partial (j : Json) (C : Circuit) : (CircuitSays j C → Circuit.ofJson j = .ok C) ∧
    ((∀ l, Entry j (t! "gate_list") l → ∃ vs, l = .arr vs ∧ ∀ v ∈ vs, ∀ g, Entry v (t! "gate") g → ∀ x, PartOf g x → Arity x) →
      Circuit.ofJson j = .ok C → CircuitSays j C) := by
  constructor
  · rintro ⟨vs, h1, h2, h3⟩
    unfold Circuit.ofJson
    rw [at_of h1, ok_bind]
    refine (circuit_read_of h2 _).trans ?_
    rw [← h3]
    rfl
  · intro h hc
    unfold Circuit.ofJson at hc
    obtain ⟨l, hl, hc⟩ := bind_ok hc
    obtain ⟨vs, rfl, hv⟩ := h l (at_inv hl)
    obtain ⟨gs, a, b, c⟩ := circuit_says vs hv hc
    refine ⟨vs, at_inv hl, ?_, ?_⟩
    · rw [b]; exact a
    · rw [b, c]; simp [Circuit.empty]

/-- two readings of one value are equal: what a value says determines the gate -/
theorem C87_unique {j : Json} {g g' : Gate} (h : GateSays j g) (h' : GateSays j g') : g = g' :=
  Except.ok.inj ((gate_read_of h).1.symm.trans (gate_read_of h').1)

/-! ## what the readers accept -/

/-- an `X` gate with two targets is read as a gate that no JSON value describes -/
theorem C87_counterexample_target : ∃ j g, j = .obj [(t! "type", .str (t! "X")), (t! "target", .arr [.uint 0, .uint 1]), (t! "control", .arr []),
    (t! "control_value", .arr [])] ∧ Gate.ofJson j = .ok g ∧ ¬ GateSays j g := by
  refine ⟨_, .det (.one .X ⟨3, 0, 0⟩), rfl, ?_, ?_⟩
  · rw [Gate.ofJson.eq_1]
    rfl
  · intro h
    have key : ∀ l, ¬ ListEntry (Json.obj [(t! "type", .str (t! "X")), (t! "target", .arr [.uint 0, .uint 1]), (t! "control", .arr []),
        (t! "control_value", .arr [])]) (t! "target") [l] := by
      rintro l ⟨vs, ⟨fs, e, hv⟩, hf⟩
      cases e
      cases hv
      cases hf with
      | cons _ h => cases h
    cases h with
    | det hd hb =>
      cases hd with
      | one k q cs vs hk ht hc => exact key _ ht
      | ident h => cases hb
      | globalPhase phase cs vs h =>
        obtain ⟨fs, e, hv⟩ := h
        cases e
        cases hv
      | swap a b cs vs h =>
        obtain ⟨fs, e, hv⟩ := h
        cases e
        cases hv
      | ecr a b cs vs h =>
        obtain ⟨fs, e, hv⟩ := h
        cases e
        cases hv
      | perm dst h =>
        obtain ⟨fs, e, hv⟩ := h
        cases e
        cases hv
      | pauli v p cs vs h =>
        obtain ⟨fs, e, hv⟩ := h
        cases e
        cases hv
      | pauliRot v p angle cs vs h =>
        obtain ⟨fs, e, hv⟩ := h
        cases e
        cases hv
    | probabilistic h =>
      obtain ⟨fs, e, hv⟩ := h
      cases e
      cases hv

/-- an object in place of the list of a circuit: its values are read as the entries -/
theorem C87_counterexample_object : ∃ j C, j = .obj [(t! "gate_list", .obj [(t! "a", .obj [(t! "gate", .obj [(t! "type", .str (t! "I"))])])])] ∧
    Circuit.ofJson j = .ok C ∧ ¬ CircuitSays j C := by
  refine ⟨_, ⟨[.inl (.det .ident)], [none]⟩, rfl, ?_, ?_⟩
  · unfold Circuit.ofJson
    rw [at_of (v := .obj [(t! "a", .obj [(t! "gate", .obj [(t! "type", .str (t! "I"))])])]) ⟨_, rfl, rfl⟩, ok_bind]
    rw [show (Json.obj [(t! "a", .obj [(t! "gate", .obj [(t! "type", .str (t! "I"))])])]).items = [.obj [(t! "gate", .obj [(t! "type", .str (t! "I"))])]] from
      by simp [Json.items], List.foldlM_cons]
    unfold addFromJson
    rw [if_neg (by decide), at_of (v := .obj [(t! "type", .str (t! "I"))]) ⟨_, rfl, rfl⟩, ok_bind, Gate.ofJson.eq_1]
    rfl
  · rintro ⟨vs, ⟨fs, e, h⟩, -⟩
    cases e
    cases h

/-- integers are converted without a check: `-1` is the classical bit `2^64 - 1`, and `0.7` is qubit 0 -/
theorem C87_conversions : ∃ j g, j = .obj [(t! "type", .str (t! "Measurement")), (t! "target", .arr [.real 0.7]), (t! "classical_bit", .int (-1))] ∧
    Gate.ofJson j = .ok (.meas g) ∧ mkMeas 0 (2 ^ 64 - 1) false = .ok g := by
  have hm : mkMeas 0 (2 ^ 64 - 1) false = .ok ⟨⟨1, 0, 0⟩, 2 ^ 64 - 1, false⟩ := rfl
  refine ⟨_, _, rfl, (gate_read_of (.measurement (q := 0) (cbit := 2 ^ 64 - 1) (reset := false) ⟨_, rfl, rfl⟩ ?_ ?_ ?_ hm)).1, hm⟩
  · exact ⟨_, ⟨_, rfl, rfl⟩, .cons (.real _ _ (by norm_num) (by norm_num) (by norm_num) (.inr rfl)) .nil⟩
  · exact ⟨_, ⟨_, rfl, rfl⟩, .signed _ _ (by norm_num) (by decide)⟩
  · refine .inr ⟨rfl, ?_⟩
    rintro v ⟨fs, e, h⟩
    cases e
    cases h

/-- a controlled rotation, and a circuit with it and a parametric rotation -/
def saysGate : Json := .obj [(t! "type", .str (t! "RX")), (t! "target", .arr [.uint 2]), (t! "control", .arr [.uint 0, .uint 5]),
  (t! "control_value", .arr [.uint 1, .uint 0]), (t! "angle", .real 0.25)]

/-- a parametric rotation -/
def saysParam : Json := .obj [(t! "type", .str (t! "ParamRZ")), (t! "target", .arr [.uint 1]), (t! "control", .arr []), (t! "control_value", .arr []),
  (t! "param_coef", .real 2)]

/-- a circuit of the two -/
def saysCircuit : Json := .obj [(t! "gate_list", .arr [.obj [(t! "gate", saysGate)], .obj [(t! "gate", saysParam), (t! "key", .str (t! "theta"))]])]

theorem saysGate_says : GateSays saysGate (.det (.one (.RX 0.25) ⟨4, 33, 1⟩)) :=
  .det (d := .one (.RX 0.25) 2 [0, 5] [1, 0])
    (.one _ _ _ _ (.RX _ ⟨_, rfl, rfl⟩ ⟨_, ⟨_, rfl, rfl⟩, .real _⟩) ⟨_, ⟨_, rfl, rfl⟩, .cons (.unsigned _) .nil⟩
      ⟨⟨_, ⟨_, rfl, rfl⟩, .cons (.unsigned _) (.cons (.unsigned _) .nil)⟩, rfl, [], ⟨_, ⟨_, rfl, rfl⟩, .cons (.unsigned _) (.cons (.unsigned _) .nil)⟩⟩)
    rfl

theorem saysParam_says : ParamSays saysParam (.rot (.axis .Z ⟨2, 0, 0⟩ 2)) :=
  .axis (a := .Z) (q := 1) (k := 2) (cs := []) (vs := []) (.Z ⟨_, rfl, rfl⟩) ⟨_, ⟨_, rfl, rfl⟩, .cons (.unsigned _) .nil⟩ ⟨_, ⟨_, rfl, rfl⟩, .real _⟩
    ⟨⟨_, ⟨_, rfl, rfl⟩, .nil⟩, rfl, [], ⟨_, ⟨_, rfl, rfl⟩, .nil⟩⟩ rfl

/-- C87: a value without nested gates whose target is one qubit meets the condition -/
theorem leaf_arity {j : Json} {name : Text} {ts : List Nat} (h1 : TextEntry j (t! "type") name) (hn : name ∈ targetTypes)
    (h2 : ListEntry j (t! "target") ts) (hl : ts.length = 1) (h3 : ∀ v, ¬ Entry j (t! "gate_list") v) : ∀ x, PartOf j x → Arity x := by
  have only : ∀ x, PartOf j x → x = j := by
    intro x hx
    induction hx with
    | self => rfl
    | entry _ he _ ih => subst ih; exact (h3 _ he).elim
  intro x hx
  cases only x hx
  obtain ⟨fs, rfl, hfs⟩ := h1
  have same : ∀ {k v w}, Entry (.obj fs) k v → Entry (.obj fs) k w → v = w := by
    rintro k v w ⟨a, e, h⟩ ⟨b, e', h'⟩
    cases e
    cases e'
    rw [h] at h'
    exact Option.some.inj h'
  refine ⟨?_, ?_, ?_, fun v hv => (h3 v hv).elim⟩
  · rintro n ts' - - ⟨vs', e', f'⟩
    obtain ⟨vs, e, f⟩ := h2
    cases same e e'
    rw [f'.length_eq, ← f.length_eq, hl]
  · intro ts' hs
    cases same hs ⟨fs, rfl, hfs⟩
    exact absurd hn (by decide)
  · intro ts' _ _ hs
    cases same hs ⟨fs, rfl, hfs⟩
    exact absurd hn (by decide)

theorem saysGate_arity : ∀ x, PartOf saysGate x → Arity x :=
  leaf_arity (ts := [2]) (name := (t! "RX")) ⟨_, rfl, rfl⟩ (by decide) ⟨_, ⟨_, rfl, rfl⟩, .cons (.unsigned _) .nil⟩ rfl fun v ⟨fs, e, h⟩ => by
    cases e
    cases h

theorem saysParam_arity : ∀ x, PartOf saysParam x → Arity x :=
  leaf_arity (ts := [1]) (name := (t! "ParamRZ")) ⟨_, rfl, rfl⟩ (by decide) ⟨_, ⟨_, rfl, rfl⟩, .cons (.unsigned _) .nil⟩ rfl fun v ⟨fs, e, h⟩ => by
    cases e
    cases h

/-- C87: the hypotheses are met by the controlled rotation and by the parametric rotation -/
example : (∀ x, PartOf saysGate x → Arity x) ∧ (∃ g, GateSays saysGate g) ∧ (∀ x, PartOf saysParam x → Arity x) ∧ ∃ g, ParamSays saysParam g :=
  ⟨saysGate_arity, ⟨_, saysGate_says⟩, saysParam_arity, _, saysParam_says⟩

/-- C87: the hypotheses are met by the circuit -/
example : (∀ l, Entry saysCircuit (t! "gate_list") l → ∃ vs, l = .arr vs ∧ ∀ v ∈ vs, ∀ g, Entry v (t! "gate") g → ∀ x, PartOf g x → Arity x) ∧
    ∃ C : Circuit, C.gates.length = 2 ∧ CircuitSays saysCircuit C := by
  constructor
  · rintro l ⟨fs, e, h⟩
    cases e
    cases h
    refine ⟨_, rfl, ?_⟩
    intro v hv g hg
    simp only [List.mem_cons, List.not_mem_nil, or_false] at hv
    obtain ⟨fs, e, h⟩ := hg
    rcases hv with rfl | rfl
    · cases e
      cases h
      exact saysGate_arity
    · cases e
      cases h
      exact saysParam_arity
  · refine ⟨⟨[.inl (.det (.one (.RX 0.25) ⟨4, 33, 1⟩)), .inr (.rot (.axis .Z ⟨2, 0, 0⟩ 2), "theta")], [none, none]⟩, rfl, _, ⟨_, rfl, rfl⟩, ?_, rfl⟩
    refine .cons (.gate ?_ ⟨_, rfl, rfl⟩ saysGate_says) (.cons (.param ⟨_, rfl, rfl⟩ ⟨_, rfl, rfl⟩ saysParam_says) .nil)
    rintro w ⟨fs, e, h⟩
    cases e
    cases h

end Verif.Props
