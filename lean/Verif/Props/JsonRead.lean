import Verif.Proofs.JsonRead
import Verif.Props.Json
import Verif.Props.JsonState

/-!
# Reading arbitrary JSON (C62)
-/

namespace Verif.Props
open Verif Verif.Spec Verif.Model Verif.Proofs

attribute [-simp] BitVec.getLsbD_eq_getElem

/-- the types of gates with exactly one target -/
def oneTarget : List Text :=
  [(t! "X"), (t! "Y"), (t! "Z"), (t! "H"), (t! "S"), (t! "Sdag"), (t! "T"), (t! "Tdag"), (t! "SqrtX"), (t! "SqrtXdag"), (t! "SqrtY"),
    (t! "SqrtYdag"), (t! "RX"), (t! "RY"), (t! "RZ"), (t! "U1"), (t! "U2"), (t! "U3"), (t! "Measurement"), (t! "ParamRX"), (t! "ParamRY"),
    (t! "ParamRZ")]

/-- a gate object has the shape the readers rely on without checking it -/
structure Shape (j : Json) : Prop extends Numbers j where
  one : ∀ name ts, j.typeName = .ok name → name ∈ oneTarget → j.uints (t! "target") = .ok ts → ts.length = 1
  two : ∀ ts, j.typeName = .ok (t! "Swap") → j.uints (t! "target") = .ok ts → ts.length = 2
  ecr : ∀ ts cs ps, j.typeName = .ok (t! "Ecr") → j.uints (t! "target") = .ok ts → j.uints (t! "physical_control") = .ok cs →
    j.uints (t! "physical_target") = .ok ps → ∃ a b, cs = [a] ∧ ps = [b] ∧ (ts = [a, b] ∨ ts = [b, a])
  dst : ∀ l, j.uints (t! "dst") = .ok l → l.length < 64

/-- `j` itself and the entries of the gate lists in it -/
inductive Inside (j : Json) : Json → Prop
  | self : Inside j j
  | entry {x y a : Json} (hx : Inside j x) (ha : x.at (t! "gate_list") = .ok a) (hy : y ∈ a.items) : Inside j y

theorem Inside.trans {j x y : Json} (h1 : Inside j x) (h2 : Inside x y) : Inside j y := by
  induction h2 with
  | self => exact h1
  | entry _ ha hy ih => exact .entry ih ha hy

/-- what a factory function returns -/
def FromFactory (g : UGate) : Prop := ∃ d : GateDesc, d.build = .ok g

theorem gives_plain {j : Json} (h : Numbers j) (h1 : ∀ ts, j.uints (t! "target") = .ok ts → ts.length = 1) (k : Gate1) :
    Gives FromFactory (readPlain k j) := by
  unfold readPlain
  refine (gives_masks h).bind fun m _ ⟨ts, cs, vs, hts, ht, hc⟩ => (gateBase_defined _ _ _).gives.bind fun o ho _ => .pure ?_
  obtain ⟨q, rfl⟩ := List.length_eq_one_iff.1 (h1 ts hts)
  refine ⟨.one k q cs vs, ?_⟩
  show (do let o ← mkOperands [q] cs vs; pure (UGate.one k o)) = _
  rw [mkOperands_read ht hc ho]
  rfl

theorem gives_angles {j : Json} (h : Numbers j) (h1 : ∀ ts, j.uints (t! "target") = .ok ts → ts.length = 1) (k : List ℝ → Option Gate1)
    (keys : List Text) : Gives FromFactory (readAngles k keys j) := by
  unfold readAngles
  refine (gives_masks h).bind fun m _ ⟨ts, cs, vs, hts, ht, hc⟩ =>
    (Gives.mapM (P := fun _ => True) keys fun key _ => defined_number j key).bind fun as _ _ =>
    (gateBase_defined _ _ _).gives.bind fun o ho _ => ?_
  obtain ⟨q, rfl⟩ := List.length_eq_one_iff.1 (h1 ts hts)
  split
  · rename_i g hg
    refine .pure ⟨.one g q cs vs, ?_⟩
    show (do let o ← mkOperands [q] cs vs; pure (UGate.one g o)) = _
    rw [mkOperands_read ht hc ho]
    rfl
  · exact .throw _

theorem vectorToMask_congr {l l' : List Nat} {m m' : U64} (h : vectorToMask l = .ok m) (h' : vectorToMask l' = .ok m') (he : ∀ i, i ∈ l ↔ i ∈ l') :
    m = m' := by
  apply U64.ext
  intro i _
  rw [getLsbD_vectorToMask h, getLsbD_vectorToMask h']
  simp [he]

theorem branch {p : Prop} [Decidable p] {a r : Res UGate} {x : Option (Res UGate)} (h : (if p then some a else x) = some r) :
    (p ∧ a = r) ∨ x = some r := by
  by_cases hp : p
  · rw [if_pos hp] at h
    exact .inl ⟨hp, Option.some.inj h⟩
  · rw [if_neg hp] at h
    exact .inr h

theorem gives_ugate {j : Json} {type : Text} (h : Shape j) (hn : j.typeName = .ok type) {r : Res UGate} (hr : readUGate type j = some r) :
    Gives FromFactory r := by
  have hone : type ∈ oneTarget → ∀ ts, j.uints (t! "target") = .ok ts → ts.length = 1 := fun hm ts hts => h.one type ts hn hm hts
  unfold readUGate at hr
  by_cases e : type = (t! "I")
  · rw [if_pos e] at hr
    cases hr
    exact .ok ⟨.ident, rfl⟩
  rw [if_neg e] at hr
  clear e
  by_cases e : type = (t! "GlobalPhase")
  · rw [if_pos e] at hr
    cases hr
    unfold readGlobalPhase
    refine (gives_controls h.toNumbers).bind fun m _ ⟨cs, vs, hc⟩ => (defined_number j _).bind fun phase _ _ =>
      (gateBase_defined _ _ _).gives.bind fun o ho _ => .pure ⟨.globalPhase phase cs vs, ?_⟩
    show (do let o ← mkOperands [] cs vs; pure (UGate.globalPhase phase o)) = _
    rw [mkOperands_read (ts := []) rfl hc ho]
    rfl
  rw [if_neg e] at hr
  clear e
  iterate 12
    rcases branch hr with ⟨e, rfl⟩ | hr
    · exact gives_plain h.toNumbers (hone (by rw [e]; decide)) _
  iterate 6
    rcases branch hr with ⟨e, rfl⟩ | hr
    · exact gives_angles h.toNumbers (hone (by rw [e]; decide)) _ _
  rcases branch hr with ⟨e, rfl⟩ | hr
  · unfold readSwap
    refine (gives_masks h.toNumbers).bind fun m _ ⟨ts, cs, vs, hts, ht, hc⟩ => (gateBase_defined _ _ _).gives.bind fun o ho _ => .pure ?_
    obtain ⟨a, b, rfl⟩ := List.length_eq_two.1 (h.two ts (by rw [hn, e]) hts)
    refine ⟨.swap a b cs vs, ?_⟩
    show (do let o ← mkOperands [a, b] cs vs; pure (UGate.swap o)) = _
    rw [mkOperands_read ht hc ho]
    rfl
  rcases branch hr with ⟨e, rfl⟩ | hr
  · unfold readEcr
    refine (gives_masks h.toNumbers).bind fun m _ ⟨ts, cs, vs, hts, ht, hc⟩ => (gives_uints (h.ints _ (by simp))).bind fun pcs _ hpcs =>
      (vectorToMask_defined pcs).gives.bind fun pc hpc _ => (gives_uints (h.ints _ (by simp))).bind fun pts _ hpts =>
      (vectorToMask_defined pts).gives.bind fun pt hpt _ => (gateBase_defined _ _ _).gives.bind fun o ho _ => .pure ?_
    obtain ⟨a, b, rfl, rfl, hab⟩ := h.ecr ts pcs pts (by rw [hn, e]) hts hpcs hpts
    refine ⟨.ecr a b cs vs, ?_⟩
    have ht' : vectorToMask [b, a] = .ok m.1 := by
      obtain ⟨hnd, hlt⟩ := (vectorToMask_ok_iff ts).1 ⟨_, ht⟩
      obtain ⟨m', hm'⟩ := (vectorToMask_ok_iff [b, a]).2 ⟨by
        rcases hab with rfl | rfl
        · simp at hnd ⊢; exact fun e => hnd e.symm
        · exact hnd, by
        intro x hx
        refine hlt x ?_
        rcases hab with rfl | rfl
        · simp at hx ⊢; exact hx.symm
        · exact hx⟩
      rw [hm', vectorToMask_congr ht hm' fun i => by rcases hab with rfl | rfl <;> simp [or_comm]]
    show (do let g ← mkEcr a b cs vs; pure (UGate.ecr g)) = _
    unfold mkEcr
    rw [mkOperands_read ht' hc ho, ok_bind, hpc, ok_bind, hpt]
    rfl
  rcases branch hr with ⟨e, rfl⟩ | hr
  · unfold readPermutation
    refine (gives_uints (h.ints _ (by simp))).bind fun dst _ hd => (permCtor_defined (h.dst dst hd)).gives.bind fun g hg _ => .pure ⟨.perm dst, ?_⟩
    show (do let g ← mkPerm dst; pure (UGate.perm g)) = _
    rw [mkPerm_of_ctor (h.dst dst hd) hg]
    rfl
  rcases branch hr with ⟨e, rfl⟩ | hr
  · unfold readPauli
    refine (gives_controls h.toNumbers).bind fun m _ ⟨cs, vs, hc⟩ => (gives_at j _).bind fun a _ ha =>
      (gives_pauli fun c hcc => h.parts a c ha hcc).bind fun p _ _ => (pauliCtor_defined _ _ _).gives.bind fun g hg _ => .pure ⟨.pauli p cs vs, ?_⟩
    show (do let g ← mkPauli p cs vs; pure (UGate.pauli g)) = _
    rw [mkPauli_read hc hg]
    rfl
  rcases branch hr with ⟨e, rfl⟩ | hr
  · unfold readPauliRotation
    refine (gives_controls h.toNumbers).bind fun m _ ⟨cs, vs, hc⟩ => (gives_at j _).bind fun a _ ha =>
      (gives_pauli fun c hcc => h.parts a c ha hcc).bind fun p _ _ => (defined_number j _).bind fun angle _ _ =>
      (pauliCtor_defined _ _ _).gives.bind fun g hg _ => .pure ⟨.pauliRot p angle cs vs, ?_⟩
    show (do let g ← mkPauli p cs vs; pure (UGate.pauliRot g angle)) = _
    rw [mkPauli_read hc hg]
    rfl
  cases hr

theorem gives_measurement {j : Json} (h : Shape j) (hn : j.typeName = .ok (t! "Measurement")) :
    Gives (fun g => Made (.meas g)) (readMeasurement j) := by
  have rest : ∀ reset : Bool, Gives (fun g => Made (.meas g)) (do
      let targets ← j.uints (t! "target")
      let t ← vectorToMask targets
      let a ← j.at (t! "classical_bit")
      let cbit ← a.asUInt
      let o ← gateBase t 0 0
      pure ⟨o, cbit, reset⟩) := by
    intro reset
    refine (gives_uints (k := (t! "target")) (h.ints _ (by simp))).bind fun ts _ hts => (vectorToMask_defined ts).gives.bind fun t ht _ =>
      (gives_at j (t! "classical_bit")).bind fun a _ ha => (defined_asUInt (j := a) (fun r e => h.cbit r (by rw [ha, e]))).gives.bind
      fun cbit _ _ => (gateBase_defined _ _ _).gives.bind fun o ho _ => .pure ?_
    obtain ⟨q, rfl⟩ := List.length_eq_one_iff.1 (h.one _ ts hn (by decide) hts)
    refine .measurement (q := q) (cbit := cbit) (reset := reset) ?_
    unfold mkMeas
    rw [ht, ok_bind, ho]
    rfl
  unfold readMeasurement
  dsimp only
  split
  · exact (gives_at j _).bind fun a _ _ => (defined_asBool a).gives.bind fun reset _ _ => rest reset
  · exact rest false

theorem made_comp {g : Gate} (h : Made g) : CompOK g.component := by
  have := made_fit h
  cases g with
  | det u => trivial
  | meas m => trivial
  | prob t => exact this.ok

theorem either_comp {g : Gate ⊕ PGate} (h1 : ∀ x, g = .inl x → Made x) (h2 : ∀ x, g = .inr x → MadeP x) : CompOK (eitherComponent g) := by
  rcases g with g | g
  · have := made_fit (h1 g rfl)
    cases g with
    | det u => trivial
    | meas m => trivial
    | prob t =>
      have ht : TableOK t := this.ok
      exact ⟨by simp [ht.len], by simpa using ht.pos, ht.nonneg, ht.cum, ht.sum⟩
  · have := madeP_fit (h2 g rfl)
    cases g with
    | rot r => trivial
    | prob t => exact this.ok

theorem table_gives {G : Type} {ds : List (Option ℝ)} {cs : List (Component G)} (hc : ∀ c ∈ cs, CompOK c) :
    Defined (mkProbTable ds cs) := by
  by_cases h : ∃ t, mkProbTable ds cs = .ok t
  · exact .inl h
  · exact .inr ((mkProbTable_iff hc).2 fun t ht => h ⟨t, ht⟩)

theorem gives_typeName (j : Json) : Gives (fun s => j.typeName = .ok s) j.typeName := by
  have : Gives (fun _ => True) j.typeName := by
    unfold Json.typeName
    exact (gives_at j _).bind fun a _ _ => (defined_asText a).gives.mono fun _ _ _ => trivial
  exact this.mono fun a h _ => h

theorem gate_read (j : Json) (h : ∀ x, Inside j x → Shape x) : Gives Made (Gate.ofJson j) := by
  induction hs : sizeOf j using Nat.strongRecOn generalizing j with
  | ind n ih =>
    rw [Gate.ofJson.eq_1]
    rcases gives_typeName j with ⟨type, hn, -⟩ | ⟨m, hm⟩
    · rw [hn]
      dsimp only
      split
      · rename_i e
        exact (gives_measurement (h j .self) (by rw [hn, e])).bind fun g _ hg => .pure hg
      split
      · refine (gives_distribution j).bind fun dist _ _ => ?_
        split
        · rename_i e he
          unfold Json.gateArray at he
          rcases gives_at j (t! "gate_list") with ⟨a, ha, -⟩ | ⟨m, hm⟩
          · rw [ha, ok_bind] at he
            rcases gives_asArray a with ⟨l, hl, -⟩ | ⟨m, hm⟩
            · rw [hl] at he; cases he
            · rw [hm] at he; cases he; exact .throw _
          · rw [hm] at he
            cases he
            exact .throw _
        · rename_i l hl
          rw [mapM_attach]
          have hin : ∀ x ∈ l, Inside j x := by
            intro x hx
            unfold Json.gateArray at hl
            obtain ⟨a, ha, hl⟩ := bind_ok hl
            rcases gives_asArray a with ⟨l', hl', rfl⟩ | ⟨m, hm⟩
            · cases hl'.symm.trans hl
              exact .entry .self ha hx
            · rw [hm] at hl; cases hl
          refine (Gives.mapM (P := Made) l fun x hx => ih _ (hs ▸ gateArray_lt hl hx) x (fun y hy => h y ((hin x hx).trans hy)) rfl).bind
            fun gs _ hgs => ?_
          refine Gives.mono (P := fun g => mkProbabilistic (dist.map some) gs = .ok g) ?_ fun g _ hg => .probabilistic hgs hg
          refine Defined.gives ?_
          unfold mkProbabilistic
          refine (table_gives ?_).bind fun t _ => .pure _
          intro c hc
          rw [List.mem_map] at hc
          obtain ⟨g, hg, rfl⟩ := hc
          exact made_comp (hgs g hg)
      split
      · rename_i r hr
        exact (gives_ugate (h j .self) hn hr).bind fun g _ ⟨d, hd⟩ => .pure (.factory hd)
      · exact .throw _
    · rw [hm]
      exact .throw m

theorem gives_axis {j : Json} (h : Numbers j) (h1 : ∀ ts, j.uints (t! "target") = .ok ts → ts.length = 1) (a : RotAxis) :
    Gives MadeP (readAxis a j) := by
  unfold readAxis
  refine (gives_masks h).bind fun m _ ⟨ts, cs, vs, hts, ht, hc⟩ => (defined_number j _).bind fun k _ _ =>
    (gateBase_defined _ _ _).gives.bind fun o ho _ => .pure ?_
  obtain ⟨q, rfl⟩ := List.length_eq_one_iff.1 (h1 ts hts)
  refine .axis (a := a) (q := q) (k := k) (cs := cs) (vs := vs) ?_
  unfold mkAxis
  rw [mkOperands_read ht hc ho]
  rfl

theorem pgate_read (j : Json) (h : ∀ x, Inside j x → Shape x) : Gives MadeP (PGate.ofJson j) := by
  induction hs : sizeOf j using Nat.strongRecOn generalizing j with
  | ind n ih =>
    rw [PGate.ofJson.eq_1]
    rcases gives_typeName j with ⟨type, hn, -⟩ | ⟨m, hm⟩
    · rw [hn]
      dsimp only
      have hs' := h j .self
      have hone : type ∈ oneTarget → ∀ ts, j.uints (t! "target") = .ok ts → ts.length = 1 := fun hm ts hts => hs'.one type ts hn hm hts
      split
      · rename_i e
        exact gives_axis hs'.toNumbers (hone (by rw [e]; decide)) _
      split
      · rename_i e
        exact gives_axis hs'.toNumbers (hone (by rw [e]; decide)) _
      split
      · rename_i e
        exact gives_axis hs'.toNumbers (hone (by rw [e]; decide)) _
      split
      · unfold readParamPauli
        refine (gives_controls hs'.toNumbers).bind fun m _ ⟨cs, vs, hc⟩ => (gives_at j (t! "pauli")).bind fun a _ ha =>
          (gives_pauli fun c hcc => hs'.parts a c ha hcc).bind fun p _ _ => (defined_number j _).bind fun k _ _ =>
          (pauliCtor_defined _ _ _).gives.bind fun g hg _ => .pure ?_
        refine .pauli (p := p) (k := k) (cs := cs) (vs := vs) ?_
        unfold mkParamPauli
        rw [mkPauli_read hc hg]
        rfl
      split
      · refine (gives_distribution j).bind fun dist _ _ => ?_
        split
        · rename_i e he
          rcases gives_at j (t! "gate_list") with ⟨a, ha, -⟩ | ⟨m, hm⟩
          · rw [ha] at he; cases he
          · rw [hm] at he
            cases he
            exact .throw _
        · rename_i a ha
          refine Gives.bind (P := fun gs : List (Gate ⊕ PGate) => ∀ g ∈ gs, (∀ x, g = .inl x → Made x) ∧ ∀ x, g = .inr x → MadeP x) ?_
            fun gs _ hgs => ?_
          · refine Gives.mapM _ fun x _ => ?_
            have hx : ∀ y, Inside x.1 y → Shape y := fun y hy => h y (Inside.trans (.entry .self ha x.2) hy)
            refine (gives_typeName x.1).bind fun name _ _ => ?_
            split
            · exact (ih _ (hs ▸ lt_of_le_of_lt (items_lt x.2) (at_lt ha)) x.1 hx rfl).bind fun g _ hg => .pure ⟨by simp, by
                rintro y ⟨⟩; exact hg⟩
            · exact (gate_read x.1 hx).bind fun g _ hg => .pure ⟨by rintro y ⟨⟩; exact hg, by simp⟩
          · refine Gives.mono (P := fun g => mkParamProbabilistic (dist.map some) gs = .ok g) ?_
              fun g _ hg => .probabilistic (fun x hx => (hgs _ hx).1 x rfl) (fun x hx => (hgs _ hx).2 x rfl) hg
            refine Defined.gives ?_
            unfold mkParamProbabilistic
            refine (table_gives ?_).bind fun t _ => .pure _
            intro c hc
            rw [List.mem_map] at hc
            obtain ⟨g, hg, rfl⟩ := hc
            exact either_comp (hgs g hg).1 (hgs g hg).2
      · exact .throw _
    · rw [hm]
      exact .throw m

/-- **C62** (part, gates).  If `j` and the entries of its gate lists have the shape the readers rely on, reading `j` as a gate either throws or
returns a gate the factory functions can make.  Missing: the readers do not check that shape (`C62_counterexample_*`). -/
theorem C62_gate_partial (j : Json) (h : ∀ x, Inside j x → Shape x) :
    (∃ g, Gate.ofJson j = .ok g ∧ Made g) ∨ ∃ m, Gate.ofJson j = .error (.throw m) := gate_read j h

/-- **C62** (part, parametric gates). -/
theorem C62_param_gate_partial (j : Json) (h : ∀ x, Inside j x → Shape x) :
    (∃ g, PGate.ofJson j = .ok g ∧ MadeP g) ∨ ∃ m, PGate.ofJson j = .error (.throw m) := pgate_read j h

/-- **C62** (part, circuits).  The same for a circuit: every entry has a gate of that shape, then the circuit is one the interface can assemble. -/
theorem C62_circuit_partial (j : Json) (h : ∀ l e g x, j.at (t! "gate_list") = .ok l → e ∈ l.items → e.at (t! "gate") = .ok g → Inside g x → Shape x) :
    (∃ C, Circuit.ofJson j = .ok C ∧ Assembled C) ∨ ∃ m, Circuit.ofJson j = .error (.throw m) := by
  show Gives Assembled (Circuit.ofJson j)
  unfold Circuit.ofJson
  refine (gives_at j _).bind fun l _ hl => Gives.foldlM _ .empty fun C e he hC => ?_
  unfold addFromJson
  split
  · refine (gives_at e _).bind fun a _ ha => (pgate_read a fun x hx => h l e a x hl he ha hx).bind fun g _ hg =>
      (gives_at e _).bind fun b _ _ => (defined_asText b).gives.bind fun k _ _ => .pure (.param hC hg _)
  · exact (gives_at e _).bind fun a _ ha => (gate_read a fun x hx => h l e a x hl he ha hx).bind fun g _ hg => .pure (.gate hC hg)

/-! ## what the readers do not check -/

/-- a fixed gate of a one-qubit class has one target -/
def OneBit : Gate → Prop
  | .det (.one _ o) => ∃ q, ∀ i, o.t.getLsbD i = true ↔ i = q
  | _ => True

theorem made_oneBit {g : Gate} (h : Made g) : OneBit g := by
  induction h with
  | @factory d g h =>
    cases g with
    | one k o =>
      cases d <;> first
        | cases h; done
        | (obtain ⟨x, hx, h⟩ := bind_ok h; cases h; done)
        | skip
      obtain ⟨o', ho, h⟩ := bind_ok h
      cases h
      obtain ⟨-, -, -, -, -, -, -, tb, -, -⟩ := mkOperands_ok ho
      rename_i q cs vs
      exact ⟨q, fun i => by rw [tb]; simp⟩
    | _ => trivial
  | measurement h => trivial
  | probabilistic _ h _ =>
    obtain ⟨t, -, h⟩ := bind_ok h
    cases h
    trivial
  | @inverse g g' _ h ih =>
    cases g with
    | det u =>
      obtain ⟨u', hu, h⟩ := bind_ok h
      cases h
      cases u with
      | one k o =>
        obtain ⟨k', -, hu⟩ := bind_ok hu
        cases hu
        exact ih
      | ident => cases hu; trivial
      | globalPhase => cases hu; trivial
      | swap => cases hu; trivial
      | ecr => cases hu; trivial
      | perm => obtain ⟨x, -, hu⟩ := bind_ok hu; cases hu; trivial
      | dense => obtain ⟨x, -, hu⟩ := bind_ok hu; cases hu; trivial
      | sparse => cases hu
      | pauli => cases hu; trivial
      | pauliRot => cases hu; trivial
    | prob t =>
      obtain ⟨t', -, h⟩ := bind_ok h
      cases h
      trivial
    | meas => cases h

/-- `{"type": "X", "target": [0, 1], "control": [], "control_value": []}` is read as an X gate with two targets, which no factory makes -/
theorem C62_counterexample_target : ∃ j g, j = .obj [(t! "type", .str (t! "X")), (t! "target", .arr [.uint 0, .uint 1]), (t! "control", .arr []),
    (t! "control_value", .arr [])] ∧ Gate.ofJson j = .ok g ∧ ¬ Made g := by
  refine ⟨_, .det (.one .X ⟨3, 0, 0⟩), rfl, ?_, ?_⟩
  · rw [Gate.ofJson.eq_1]
    rfl
  · intro h
    obtain ⟨q, hq⟩ := made_oneBit h
    have h0 := (hq 0).1 (by decide)
    have h1 := (hq 1).1 (by decide)
    omega

theorem ofJson_det {j : Json} {type : Text} {r : Res UGate} (hn : j.typeName = .ok type) (h1 : type ≠ (t! "Measurement"))
    (h2 : type ≠ (t! "Probabilistic")) (hr : readUGate type j = some r) : Gate.ofJson j = (do let g ← r; pure (.det g)) := by
  rw [Gate.ofJson.eq_1, hn]
  dsimp only
  rw [if_neg h1, if_neg h2, hr]

/-- an X gate with a control and no control value: the reader reads past the end of the value list -/
theorem C62_counterexample_values : ∃ j m, j = .obj [(t! "type", .str (t! "X")), (t! "target", .arr [.uint 0]), (t! "control", .arr [.uint 1]),
    (t! "control_value", .arr [])] ∧ Gate.ofJson j = .error (.ub m) := by
  refine ⟨_, "values[i] out of range", rfl, ?_⟩
  rw [ofJson_det (type := (t! "X")) rfl (by decide) (by decide) rfl]
  rfl

/-- a permutation of 64 qubits: the constructor shifts by 64 -/
theorem C62_counterexample_permutation : ∃ j m, j = .obj [(t! "type", .str (t! "Permutation")), (t! "dst", Json.ofList (List.range 64))] ∧
    Gate.ofJson j = .error (.ub m) := by
  refine ⟨_, "shift by >= 64", rfl, ?_⟩
  rw [ofJson_det (type := (t! "Permutation")) rfl (by decide) (by decide) rfl]
  unfold readPermutation
  rw [uints_of (l := List.range 64) rfl, ok_bind]
  unfold permCtor
  obtain ⟨m, hm⟩ := (vectorToMask_ok_iff (List.range 64)).2 ⟨List.nodup_range, fun x hx => by simpa using hx⟩
  rw [hm, ok_bind]
  unfold gateBase
  rw [if_neg (by simp), ok_bind]
  rfl

/-- a controlled rotation object meets the hypotheses of `C62_gate_partial` and is read -/
example : ∃ j, (∀ x, Inside j x → Shape x) ∧ ∃ g, Gate.ofJson j = .ok g := by
  refine ⟨.obj [(t! "type", .str (t! "RX")), (t! "target", .arr [.uint 0]), (t! "control", .arr [.uint 1]), (t! "control_value", .arr [.uint 0]),
    (t! "angle", .real 2)], ?_, .det (.one (.RX 2) ⟨1, 2, 0⟩), ?_⟩
  · intro x hx
    have e : x = .obj [(t! "type", .str (t! "RX")), (t! "target", .arr [.uint 0]), (t! "control", .arr [.uint 1]),
        (t! "control_value", .arr [.uint 0]), (t! "angle", .real 2)] := by
      induction hx with
      | self => rfl
      | entry _ ha _ ih => rw [ih] at ha; cases ha
    subst e
    refine { ints := ?_, cbit := ?_, values := ?_, parts := ?_, one := ?_, two := ?_, ecr := ?_, dst := ?_ }
    · intro k hk l hl y hy r
      simp only [List.mem_cons, List.not_mem_nil, or_false] at hk
      rcases hk with rfl | rfl | rfl | rfl | rfl | rfl
      · cases hl; simp at hy; rw [hy]; exact Json.noConfusion
      · cases hl; simp at hy; rw [hy]; exact Json.noConfusion
      · cases hl; simp at hy; rw [hy]; exact Json.noConfusion
      · cases hl
      · cases hl
      · cases hl
    · intro r h; cases h
    · intro cs vs h1 h2
      have e1 : cs = [1] := by cases h1; rfl
      have e2 : vs = [0] := by cases h2; rfl
      rw [e1, e2]
      exact le_refl _
    · intro p c h; cases h
    · intro name ts _ _ h
      have e1 : ts = [0] := by cases h; rfl
      rw [e1]; rfl
    · intro ts h; cases h
    · intro ts cs ps h; cases h
    · intro l h; cases h
  · rw [ofJson_det (type := (t! "RX")) rfl (by decide) (by decide) rfl]
    rfl

/-! ## operators and states -/

/-- a complex number has both parts if it is an object -/
def BothParts (j : Json) : Prop := ∀ fs, j = .obj fs → (fs.lookup (t! "real")).isSome = true ∧ (fs.lookup (t! "imag")).isSome = true

/-- **C62** (part, operators).  If every coefficient that is an object has both parts, reading an operator or a batched operator returns an object
built by the constructor from the terms, or throws. -/
theorem C62_operator_partial (j : Json) :
    ((∀ l t c, j.at (t! "terms") = .ok l → t ∈ l.items → t.at (t! "coef") = .ok c → BothParts c) →
      (∃ ts, Op.ofJson j = .ok (Op.ofTerms ts)) ∨ ∃ m, Op.ofJson j = .error (.throw m)) ∧
    ((∀ os o l t c, j.at (t! "Operators") = .ok os → o ∈ os.items → o.at (t! "terms") = .ok l → t ∈ l.items → t.at (t! "coef") = .ok c →
        BothParts c) →
      (∃ ls, OpB.ofJson j = .ok (OpB.ofLists ls)) ∨ ∃ m, OpB.ofJson j = .error (.throw m)) := by
  have op : ∀ j : Json, (∀ l t c, j.at (t! "terms") = .ok l → t ∈ l.items → t.at (t! "coef") = .ok c → BothParts c) →
      Gives (fun o => ∃ ts, o = Op.ofTerms ts) (Op.ofJson j) := by
    intro j h
    rw [opOfJson_eq]
    exact (gives_at j _).bind fun l _ hl => (Gives.mapM (P := fun _ => True) _ fun t ht => gives_pauli fun c hc => h l t c hl ht hc).bind
      fun ts _ _ => .pure ⟨ts, rfl⟩
  refine ⟨fun h => ?_, fun h => ?_⟩
  · rcases op j h with ⟨o, ho, ts, rfl⟩ | hm
    · exact .inl ⟨ts, ho⟩
    · exact .inr hm
  · have : Gives (fun o => ∃ ls, o = OpB.ofLists ls) (OpB.ofJson j) := by
      unfold OpB.ofJson
      refine (gives_at j _).bind fun os _ hos => (Gives.mapM (P := fun _ => True) _ fun o ho =>
        (op o fun l t c hl ht hc => h os o l t c hos ho hl ht hc).mono fun _ _ _ => trivial).bind fun ops _ _ => .pure ⟨ops.map Op.terms, ?_⟩
      exact (C30_slots (ops.map Op.terms)).2.2.2.2.2 ops rfl
    rcases this with ⟨o, ho, ls, rfl⟩ | hm
    · exact .inl ⟨ls, ho⟩
    · exact .inr hm

/-- a coefficient without a real part is read by an unchecked access -/
theorem C62_counterexample_coef : ∃ j m, j = .obj [(t! "terms", .arr [.obj [(t! "pauli_string", .str (t! "X 0")),
    (t! "coef", .obj [(t! "imag", .real 1)])]])] ∧ Op.ofJson j = .error (.ub m) :=
  ⟨_, "operator[] const: key not found", rfl, rfl⟩

/-- the field is a number of qubits below 64 if it is a number -/
def SmallSize (j : Json) : Prop := (∀ r, j.at (t! "n_qubits") ≠ .ok (.real r)) ∧ ∀ a n, j.at (t! "n_qubits") = .ok a → a.asUInt = .ok n → n < 64

theorem gives_size {j : Json} (h : SmallSize j) {β : Type} {Q : β → Prop} {f : Nat → Nat → Res β} (hf : ∀ n, n < 64 → Gives Q (f n (2 ^ n))) :
    Gives Q (do
      let a ← j.at (t! "n_qubits")
      let n ← a.asUInt
      let dim ← dimOf n
      f n dim) := by
  refine (gives_at j (t! "n_qubits")).bind fun a _ ha => (defined_asUInt (j := a) fun r e => h.1 r (by rw [ha, e])).gives.bind fun n hn _ => ?_
  have := h.2 a n ha hn
  rw [dimOf, if_pos this, ok_bind]
  exact hf n this

theorem gives_complexes {j : Json} (h : ∀ l, j = .arr l → ∀ x ∈ l, BothParts x) : Gives (fun _ => True) (complexesOfJson j) := by
  unfold complexesOfJson
  exact (gives_asArray j).bind fun l _ hl => (Gives.mapM (P := fun _ => True) l fun x hx => gives_complex (h l hl x hx)).mono fun _ _ _ => trivial

/-- **C62** (part, state vectors).  Whatever is read as a state has fewer than 64 qubits and exactly 2^n amplitudes; with a number of qubits below 64 and
complex numbers that have both parts, everything else throws. -/
theorem C62_state_partial (j : Json) :
    (∀ s, stateOfJson j = .ok s → s.n < 64 ∧ s.amplitudes.length = 2 ^ s.n) ∧
    (SmallSize j → (∀ l x, j.at (t! "amplitudes") = .ok (.arr l) → x ∈ l → BothParts x) →
      (∃ s, stateOfJson j = .ok s) ∨ ∃ m, stateOfJson j = .error (.throw m)) := by
  constructor
  · intro s h
    unfold stateOfJson at h
    obtain ⟨a, -, h⟩ := bind_ok h
    obtain ⟨n, -, h⟩ := bind_ok h
    obtain ⟨dim, hd, h⟩ := bind_ok h
    obtain ⟨b, -, h⟩ := bind_ok h
    obtain ⟨l, -, h⟩ := bind_ok h
    obtain ⟨hn, rfl⟩ := dimOf_ok hd
    split at h
    · cases h
    · rename_i hl
      cases h
      exact ⟨hn, not_not.1 hl⟩
  · intro hs hp
    have : Gives (fun _ => True) (stateOfJson j) := by
      refine gives_size hs fun n hn => (gives_at j (t! "amplitudes")).bind fun b _ hb => (gives_complexes fun l hl x hx => hp l x (by rw [hb, hl]) hx).bind
        fun l _ _ => ?_
      split
      · exact .throw _
      · exact .ok trivial
    exact this.imp (fun ⟨s, hs, _⟩ => ⟨s, hs⟩) id

/-- **C62** (part, batches). -/
theorem C62_batch_partial (j : Json) :
    (∀ s, batchOfJson j = .ok s → s.n < 64 ∧ s.rows.length = s.size ∧ ∀ r ∈ s.rows, r.length = 2 ^ s.n) ∧
    (SmallSize j → (∀ r, j.at (t! "batch_size") ≠ .ok (.real r)) →
      (∀ ls l x, j.at (t! "amplitudes") = .ok (.arr ls) → .arr l ∈ ls → x ∈ l → BothParts x) →
      (∃ s, batchOfJson j = .ok s) ∨ ∃ m, batchOfJson j = .error (.throw m)) := by
  constructor
  · intro s h
    unfold batchOfJson at h
    obtain ⟨a, -, h⟩ := bind_ok h
    obtain ⟨size, -, h⟩ := bind_ok h
    obtain ⟨a, -, h⟩ := bind_ok h
    obtain ⟨n, -, h⟩ := bind_ok h
    obtain ⟨dim, hd, h⟩ := bind_ok h
    obtain ⟨b, -, h⟩ := bind_ok h
    obtain ⟨l, -, h⟩ := bind_ok h
    obtain ⟨rows, -, h⟩ := bind_ok h
    obtain ⟨hn, rfl⟩ := dimOf_ok hd
    split at h
    · cases h
    · rename_i hl
      split at h
      · cases h
      · rename_i hr
        cases h
        exact ⟨hn, not_not.1 hl, not_not.1 hr⟩
  · intro hs hb hp
    have : Gives (fun _ => True) (batchOfJson j) := by
      unfold batchOfJson
      refine (gives_at j (t! "batch_size")).bind fun a _ ha => (defined_asUInt (j := a) fun r e => hb r (by rw [ha, e])).gives.bind fun size _ _ => ?_
      refine gives_size hs fun n hn => (gives_at j (t! "amplitudes")).bind fun b _ hb => (gives_asArray b).bind fun l _ hl =>
        (Gives.mapM (P := fun _ => True) l fun y hy => gives_complexes fun l' hl' x hx => hp l l' x (by rw [hb, hl]) (hl' ▸ hy) hx).bind
        fun rows _ _ => ?_
      split
      · exact .throw _
      split
      · exact .throw _
      · exact .ok trivial
    exact this.imp (fun ⟨s, hs, _⟩ => ⟨s, hs⟩) id

/-- **C62** (part, density matrices).  Whatever is read as a density matrix has fewer than 64 qubits and 2^n rows of 2^n elements. -/
theorem C62_density_partial (j : Json) (s : DMImage) (h : DM.ofJson j = .ok s) :
    s.n < 64 ∧ s.rows.length = 2 ^ s.n ∧ ∀ r ∈ s.rows, r.length = 2 ^ s.n := by
  unfold DM.ofJson at h
  obtain ⟨a, -, h⟩ := bind_ok h
  obtain ⟨n, -, h⟩ := bind_ok h
  obtain ⟨b, -, h⟩ := bind_ok h
  obtain ⟨f, -, h⟩ := bind_ok h
  obtain ⟨c, -, h⟩ := bind_ok h
  obtain ⟨m, hm, h⟩ := bind_ok h
  obtain ⟨dim, hd, h⟩ := bind_ok h
  obtain ⟨hn, rfl⟩ := dimOf_ok hd
  split at h
  · cases h
  · rename_i hl
    split at h
    · cases h
    · rename_i hr
      cases h
      refine ⟨hn, ?_, not_not.1 hr⟩
      have hrows : m.rows = 2 ^ n := not_not.1 fun e => hl (.inl e)
      rw [← hrows]
      unfold matrixOfJson at hm
      obtain ⟨r₀, h0, hm⟩ := bind_ok hm
      split at hm
      · cases hm
      · obtain ⟨given, hg, hm⟩ := bind_ok hm
        cases hm
        show given.length = c.size
        unfold Json.first at h0
        split at h0
        · rename_i x xs
          rw [resMapM_length hg]
          rfl
        · cases h0
        · cases h0

/-- a state of 64 qubits: the constructor shifts by 64 before anything is checked -/
theorem C62_counterexample_size : ∃ j m, j = .obj [(t! "n_qubits", .uint 64), (t! "amplitudes", .arr [])] ∧ stateOfJson j = .error (.ub m) :=
  ⟨_, "shift", rfl, rfl⟩

/-- a density matrix whose second row is longer than the first: the reader writes outside the matrix -/
theorem C62_counterexample_row : ∃ j m, j = .obj [(t! "n_qubits", .uint 1), (t! "is_hermitian", .bool true),
    (t! "matrix", .arr [.arr [complexToJson 0], .arr [complexToJson 0, complexToJson 0]])] ∧ DM.ofJson j = .error (.ub m) := by
  refine ⟨_, "Eigen: index out of range", rfl, ?_⟩
  show (do
    let m ← matrixOfJson (.arr [.arr [complexToJson 0], .arr [complexToJson 0, complexToJson 0]])
    let dim ← dimOf 1
    if m.rows ≠ dim ∨ m.cols ≠ dim then
      .error (.throw "DensityMatrix::load(const ComplexMatrix&): Input matrix size does not match density matrix size.")
    else if ¬ ∀ r ∈ m.given, r.length = dim then .error (.ub "uninitialised element")
    else .ok ⟨1, true, m.given⟩ : Res DMImage) = _
  have e : matrixOfJson (.arr [.arr [complexToJson 0], .arr [complexToJson 0, complexToJson 0]]) = .error (.ub "Eigen: index out of range") := by
    unfold matrixOfJson
    simp only [Json.first, ok_bind]
    rw [if_neg (by simp [Json.size])]
    rfl
  rw [e]
  rfl

/-- a one-qubit state meets the hypotheses of `C62_state_partial` -/
example : ∃ j, SmallSize j ∧ (∀ l x, j.at (t! "amplitudes") = .ok (.arr l) → x ∈ l → BothParts x) ∧ ∃ s, stateOfJson j = .ok s := by
  refine ⟨stateToJson 1 fun _ => 1, ⟨fun r h => (by cases h), ?_⟩, ?_, ?_⟩
  · intro a n ha hn
    cases ha
    cases hn
    omega
  · intro l x hl hx fs e
    cases hl
    rw [List.mem_map] at hx
    obtain ⟨z, -, rfl⟩ := hx
    cases e
    exact ⟨rfl, rfl⟩
  · obtain ⟨s, hs, -⟩ := C61_state (n := 1) (by omega) fun _ => 1
    exact ⟨s, hs⟩

end Verif.Props
