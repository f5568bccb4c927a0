import Verif.Proofs.JsonFit
import Verif.Props.Circuit

/-! # C47: JSON round trip of gates and circuits

Gates are what the factories, `Probabilistic`, `ParamProbabilistic` and `get_inverse` return, circuits what the `add_` functions assemble. -/

namespace Verif.Props
open Verif Verif.Spec Verif.Model Verif.Proofs

/-- gates obtained through the interface -/
inductive Made : Gate → Prop
  | factory {d : GateDesc} {g : UGate} (h : d.build = .ok g) : Made (.det g)
  | measurement {q cbit : Nat} {reset : Bool} {g : MeasGate} (h : mkMeas q cbit reset = .ok g) : Made (.meas g)
  | probabilistic {ds : List (Option ℝ)} {gs : List Gate} {g : Gate} (hs : ∀ x ∈ gs, Made x) (h : mkProbabilistic ds gs = .ok g) : Made g
  | inverse {g g' : Gate} (hs : Made g) (h : g.inverse = .ok g') : Made g'

/-- parametric gates obtained through the interface -/
inductive MadeP : PGate → Prop
  | axis {a : RotAxis} {q : Nat} {k : ℝ} {cs vs : List Nat} {r : PRot} (h : mkAxis a q k cs vs = .ok r) : MadeP (.rot r)
  | pauli {p : PauliOp} {k : ℝ} {cs vs : List Nat} {r : PRot} (h : mkParamPauli p k cs vs = .ok r) : MadeP (.rot r)
  | probabilistic {ds : List (Option ℝ)} {gs : List (Gate ⊕ PGate)} {g : PGate} (hs : ∀ x, .inl x ∈ gs → Made x)
      (hp : ∀ x, .inr x ∈ gs → MadeP x) (h : mkParamProbabilistic ds gs = .ok g) : MadeP g
  | inverse {g g' : PGate} (hs : MadeP g) (h : g.inverse = .ok g') : MadeP g'

/-- circuits obtained through the interface -/
inductive Assembled : Circuit → Prop
  | empty : Assembled Circuit.empty
  | gate {C : Circuit} {g : Gate} (hC : Assembled C) (hg : Made g) : Assembled (C.addGate g)
  | param {C : Circuit} {g : PGate} (hC : Assembled C) (hg : MadeP g) (key : String) : Assembled (C.addParamGate g key)
  | conditional {C : Circuit} {g : Gate} (hC : Assembled C) (hg : Made g) (f : Condition) : Assembled (C.addConditionalGate g f)
  | conditionalParam {C : Circuit} {g : PGate} (hC : Assembled C) (hg : MadeP g) (key : String) (f : Condition) :
      Assembled (C.addConditionalParamGate g key f)
  | circuit {C D : Circuit} (hC : Assembled C) (hD : Assembled D) : Assembled (C.addCircuit D)

/-- the four classes `from_json` does not know -/
def Unreadable (u : UGate) : Prop :=
  (∃ o, u = .one .P0 o) ∨ (∃ o, u = .one .P1 o) ∨ (∃ g, u = .dense g) ∨ ∃ g, u = .sparse g

/-- the gates without randomness a gate consists of -/
def partsOf : Gate → List UGate
  | .det u => [u]
  | .prob t => t.gates
  | .meas _ => []

def partsOfP : PGate → List UGate
  | .rot _ => []
  | .prob t => t.gates.filterMap fun | .fixed u => some u | .rot _ => none

def partsOfItem : Item → List UGate
  | .inl g => partsOf g
  | .inr (p, _) => partsOfP p

theorem unreadable_iff (u : UGate) : HasReader u ↔ ¬ Unreadable u := by
  unfold Unreadable
  cases u with
  | one k o => cases k <;> simp [HasReader]
  | _ => simp [HasReader]

theorem hasReader_gate {g : Gate} (h : ∀ u ∈ partsOf g, ¬ Unreadable u) : GateHasReader g := by
  cases g with
  | det u => exact (unreadable_iff u).2 (h u (List.mem_singleton.2 rfl))
  | prob t => exact fun u hu => (unreadable_iff u).2 (h u hu)
  | meas => trivial

theorem hasReader_pgate {g : PGate} (h : ∀ u ∈ partsOfP g, ¬ Unreadable u) : PGateHasReader g := by
  cases g with
  | rot => trivial
  | prob t =>
    intro u hu
    cases u with
    | fixed u => exact (unreadable_iff u).2 (h u (List.mem_filterMap.2 ⟨.fixed u, hu, rfl⟩))
    | rot => trivial

theorem hasReader_item {g : Item} (h : ∀ u ∈ partsOfItem g, ¬ Unreadable u) : ItemHasReader g := by
  rcases g with g | ⟨p, k⟩
  · exact hasReader_gate h
  · exact hasReader_pgate h

theorem made_fit {g : Gate} (h : Made g) : GateFit g := by
  induction h with
  | factory h => exact stored_build h
  | measurement h => exact fit_meas h
  | probabilistic _ h ih => exact fit_prob h ih
  | inverse _ h ih => exact fit_inverse ih h

theorem madeP_fit {g : PGate} (h : MadeP g) : PGateFit g := by
  induction h with
  | axis h => exact fit_axis h
  | pauli h => exact fit_paramPauli h
  | probabilistic hs _ h ih =>
    refine fit_pprob h ?_
    rintro (x | x) hx
    · exact made_fit (hs x hx)
    · exact ih x hx
  | inverse _ h ih => exact pfit_inverse ih h

theorem assembled_fit {C : Circuit} (h : Assembled C) : C.conds.length = C.gates.length ∧ ∀ g ∈ C.gates, ItemFit g := by
  have hback : ∀ (l : List (Option Condition)) (f : Condition), l ≠ [] → (setBack l f).length = l.length := by
    intro l f hl
    have : 0 < l.length := List.length_pos_iff.2 hl
    simp [setBack]
    omega
  induction h with
  | empty => exact ⟨rfl, by simp [Circuit.empty]⟩
  | gate _ hg ih =>
    refine ⟨by simp [Circuit.addGate, ih.1], ?_⟩
    intro x hx
    rcases List.mem_append.1 hx with hx | hx
    · exact ih.2 x hx
    · rw [List.mem_singleton.1 hx]
      exact made_fit hg
  | param _ hg _ ih =>
    refine ⟨by simp [Circuit.addParamGate, ih.1], ?_⟩
    intro x hx
    rcases List.mem_append.1 hx with hx | hx
    · exact ih.2 x hx
    · rw [List.mem_singleton.1 hx]
      exact madeP_fit hg
  | conditional _ hg f ih =>
    refine ⟨?_, ?_⟩
    · unfold Circuit.addConditionalGate
      dsimp only
      rw [hback _ _ (by simp [Circuit.addGate])]
      simp [Circuit.addGate, ih.1]
    · intro x hx
      rcases List.mem_append.1 hx with hx | hx
      · exact ih.2 x hx
      · rw [List.mem_singleton.1 hx]
        exact made_fit hg
  | conditionalParam _ hg _ f ih =>
    refine ⟨?_, ?_⟩
    · unfold Circuit.addConditionalParamGate
      dsimp only
      rw [hback _ _ (by simp [Circuit.addParamGate])]
      simp [Circuit.addParamGate, ih.1]
    · intro x hx
      rcases List.mem_append.1 hx with hx | hx
      · exact ih.2 x hx
      · rw [List.mem_singleton.1 hx]
        exact madeP_fit hg
  | circuit _ _ ih1 ih2 =>
    refine ⟨by simp [Circuit.addCircuit, ih1.1, ih2.1], ?_⟩
    intro x hx
    rcases List.mem_append.1 hx with hx | hx
    · exact ih1.2 x hx
    · exact ih2.2 x hx

/-- **C47**, gates: every gate of the interface that contains no P0, P1, DenseMatrix or SparseMatrix is written, and reading what was written
returns the same object.  Missing: the four classes, see `C47_refused`. -/
theorem C47_gate_partial {g : Gate} (h : Made g) (hr : ∀ u ∈ partsOf g, ¬ Unreadable u) : ∃ j, g.toJson = .ok j ∧ Gate.ofJson j = .ok g := by
  obtain ⟨j, h1, h2, -⟩ := gate_back (made_fit h) (hasReader_gate hr)
  exact ⟨j, h1, h2⟩

/-- **C47**, parametric gates, with the same restriction on the fixed gates among the alternatives of a random choice -/
theorem C47_param_gate_partial {g : PGate} (h : MadeP g) (hr : ∀ u ∈ partsOfP g, ¬ Unreadable u) :
    ∃ j, g.toJson = .ok j ∧ PGate.ofJson j = .ok g := pgate_back (madeP_fit h) (hasReader_pgate hr)

/-- **C47**, circuits: an unconditional circuit of such gates is read back as the same lists of gates, keys and (absent) conditions -/
theorem C47_circuit_partial {C : Circuit} (h : Assembled C) (hc : ∀ c ∈ C.conds, c.isNone) (hr : ∀ g ∈ C.gates, ∀ u ∈ partsOfItem g, ¬ Unreadable u) :
    ∃ j, C.toJson = .ok j ∧ Circuit.ofJson j = .ok C := by
  obtain ⟨h1, h2⟩ := assembled_fit h
  have e : C = ⟨C.gates, List.replicate C.gates.length none⟩ := by
    obtain ⟨gs, cs⟩ := C
    have : cs = List.replicate gs.length none := List.eq_replicate_iff.2 ⟨h1, fun c hm => Option.isNone_iff_eq_none.1 (hc c hm)⟩
    rw [this]
  obtain ⟨j, h3, h4⟩ := circuit_back h2 fun g hg => hasReader_item (hr g hg)
  rw [← e] at h3 h4
  exact ⟨j, h3, h4⟩

/-- a circuit with a classical condition is refused, not written without it -/
theorem C47_conditions {C : Circuit} (h : Assembled C) (hc : ∃ f, some f ∈ C.conds) (hr : ∀ g ∈ C.gates, ∀ u ∈ partsOfItem g, ¬ Unreadable u) :
    ∃ m, C.toJson = .error (.throw m) := by
  obtain ⟨h1, h2⟩ := assembled_fit h
  have : ∃ m, (C.gates.zip C.conds).mapM entryToJson = .error (.throw m) := by
    apply mapM_throws
    · rintro ⟨g, c⟩ hm
      cases c with
      | some f => exact .inr ⟨_, rfl⟩
      | none =>
        have hg := (List.of_mem_zip hm).1
        obtain ⟨j, h3, -⟩ := entry_back (h2 g hg) (hasReader_item (hr g hg))
        exact .inl ⟨j, h3⟩
    · obtain ⟨f, hf⟩ := hc
      obtain ⟨i, hi, hf⟩ := List.getElem_of_mem hf
      refine ⟨(C.gates[i]'(by omega), some f), ?_, _, rfl⟩
      rw [List.mem_iff_getElem]
      exact ⟨i, by simp; omega, by simp [hf]⟩
  obtain ⟨m, hm⟩ := this
  refine ⟨m, ?_⟩
  unfold Circuit.toJson
  rw [if_pos (le_of_eq h1.symm), hm]
  rfl

/-- the rest: a gate that contains one of the four classes may be written, and then it cannot be read -/
theorem C47_refused {g : Gate} (h : Made g) (hr : ∃ u ∈ partsOf g, Unreadable u) {j : Json} (hj : g.toJson = .ok j) :
    ∃ m, Gate.ofJson j = .error (.throw m) := by
  obtain ⟨u, hu, hr⟩ := hr
  have hn : ¬ HasReader u := fun h => (unreadable_iff u).1 h hr
  cases g with
  | det v =>
    rw [show u = v from List.mem_singleton.1 hu] at hn
    exact (noReader_throws hn hj).1
  | meas => exact absurd hu List.not_mem_nil
  | prob t =>
    obtain ⟨l, hl, hj⟩ := bind_ok (show (do
      let l ← t.gates.mapM UGate.toJson
      pure (Json.obj (typeField (t! "Probabilistic") ++ [(t! "gate_list", Json.arr l), (t! "distribution", Json.ofReals t.dist)]))) = .ok j from hj)
    cases hj
    have hfit : TableFit t Stored := made_fit h
    obtain ⟨hlen, hget⟩ := mapM_get _ hl
    have : ∃ m, l.mapM Gate.ofJson = .error (.throw m) := by
      apply mapM_throws
      · intro x hx
        obtain ⟨v, hv, he⟩ := mapM_mem hl x hx
        by_cases hb : HasReader v
        · obtain ⟨j, h1, h2, -⟩ := det_back (hfit.all v hv) hb
          rw [he] at h1
          cases h1
          exact .inl ⟨_, h2⟩
        · exact .inr (noReader_throws hb he).1
      · obtain ⟨i, hi, rfl⟩ := List.getElem_of_mem hu
        obtain ⟨b, h1, h2⟩ := hget i t.gates[i] (List.getElem?_eq_getElem hi)
        exact ⟨b, List.mem_of_getElem? h1, (noReader_throws hn h2).1⟩
    obtain ⟨m, hm⟩ := this
    refine ⟨m, ?_⟩
    rw [Gate.ofJson.eq_1]
    have h4 : (Json.obj (typeField (t! "Probabilistic") ++ [(t! "gate_list", Json.arr l), (t! "distribution", Json.ofReals t.dist)])).typeName =
      .ok (t! "Probabilistic") := rfl
    rw [h4]
    dsimp only
    rw [if_neg (by decide), if_pos rfl, distribution_of rfl, ok_bind]
    split
    · rename_i h
      cases h
    · rename_i l' h
      cases h
      rw [mapM_attach, hm]
      rfl

/-- the full claim fails: the projector P0 on qubit 0 is written as `{"type": "P0", ...}`, which `from_json` refuses -/
theorem C47_counterexample : ∃ g j, Made g ∧ g.toJson = .ok j ∧ ∃ m, Gate.ofJson j = .error (.throw m) := by
  obtain ⟨g, hg⟩ := build_one .P0 (q := 0) (cs := []) (vs := []) (by omega) (by simp) (by simp) (by simp) rfl (by simp [effectiveValues])
  have hm : Made (.det g) := .factory hg
  obtain ⟨o, ho, hg⟩ := bind_ok hg
  cases hg
  exact ⟨_, _, hm, rfl, C47_refused hm ⟨_, List.mem_singleton.2 rfl, .inl ⟨o, rfl⟩⟩ rfl⟩

/-- a random choice between a controlled rotation and a Hadamard gate -/
example : ∃ g, Made g ∧ (∃ t, g = .prob t) ∧ ∀ u ∈ partsOf g, ¬ Unreadable u := by
  obtain ⟨a, ha⟩ := build_one (.RX 1) (q := 3) (cs := [5]) (vs := [0]) (by omega) (by simp) (by simp) (by simp) rfl (by simp [effectiveValues])
  obtain ⟨b, hb⟩ := build_one .H (q := 2) (cs := []) (vs := []) (by omega) (by simp) (by simp) (by simp) rfl (by simp [effectiveValues])
  have ma : Made (.det a) := .factory ha
  have mb : Made (.det b) := .factory hb
  obtain ⟨o, ho, ha⟩ := bind_ok ha
  obtain ⟨o', ho', hb⟩ := bind_ok hb
  cases ha
  cases hb
  have h : mkProbabilistic [some (1 / 4), some (3 / 4)] [.det (.one (.RX 1) o), .det (.one .H o')] =
      .ok (.prob ⟨[1 / 4, 3 / 4], [0, 1 / 4, 1 / 4 + 3 / 4], [.one (.RX 1) o, .one .H o']⟩) := by
    unfold mkProbabilistic
    have := mkProbTable_some (G := UGate) (ps := [1 / 4, 3 / 4]) (cs := [.leaf (.one (.RX 1) o), .leaf (.one .H o')]) (by simp) rfl
      (by intro p hp; simp at hp; rcases hp with rfl | rfl <;> norm_num) (by simp [CompOK]) (by simp)
    rw [if_neg (by simp [flatAll, flatOf]; norm_num)] at this
    simp only [List.map_cons, List.map_nil, Gate.component]
    simp only [List.map_cons, List.map_nil] at this
    rw [this]
    simp [flatAll, flatOf]
  refine ⟨_, .probabilistic (by intro x hx; simp at hx; rcases hx with rfl | rfl <;> assumption) h, ⟨_, rfl⟩, ?_⟩
  intro u hu
  simp [partsOf] at hu
  rcases hu with rfl | rfl <;> simp [Unreadable]

/-- an unconditional circuit with a gate, a measurement and a parametric rotation -/
example : ∃ C, Assembled C ∧ C.gates.length = 3 ∧ (∀ c ∈ C.conds, c.isNone) ∧ ∀ g ∈ C.gates, ∀ u ∈ partsOfItem g, ¬ Unreadable u := by
  obtain ⟨a, ha⟩ := build_one .T (q := 3) (cs := []) (vs := []) (by omega) (by simp) (by simp) (by simp) rfl (by simp [effectiveValues])
  obtain ⟨m, hm⟩ := mkMeas_build (target := 1) (cbit := 5) (reset := true) (by omega)
  obtain ⟨r, hr⟩ : ∃ r, mkAxis .Y 2 (1 / 3) [] [] = .ok r := ⟨_, rfl⟩
  have h := Assembled.param (.gate (.gate .empty (.factory ha)) (.measurement hm)) (.axis hr) "theta"
  obtain ⟨o, ho, ha⟩ := bind_ok ha
  cases ha
  refine ⟨_, h, rfl, ?_, ?_⟩
  · intro c hc
    simp [Circuit.addGate, Circuit.addParamGate, Circuit.empty] at hc
    rw [hc]
    rfl
  · intro g hg u hu
    simp [Circuit.addGate, Circuit.addParamGate, Circuit.empty] at hg
    rcases hg with rfl | rfl | rfl
    · simp [partsOfItem, partsOf] at hu
      rw [hu]
      simp [Unreadable]
    · simp [partsOfItem, partsOf] at hu
    · simp [partsOfItem, partsOfP] at hu

end Verif.Props
