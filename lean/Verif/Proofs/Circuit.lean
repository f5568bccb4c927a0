import Verif.Proofs.ParamGate
import Verif.Proofs.MeasureGate

/-! # Circuits on a single state -/

namespace Verif.Proofs
open Verif Verif.Spec Verif.Model
attribute [-simp] BitVec.getLsbD_eq_getElem

/-! ## building a circuit with the public functions -/

/-- an argument of `ParamProbabilistic` -/
noncomputable def _root_.Verif.Spec.LeafDesc.build : LeafDesc → Res (Gate ⊕ PGate)
  | .fixed d => do
    let g ← d.build
    pure (.inl (.det g))
  | .rot r => do
    let p ← r.build
    pure (.inr (.rot p))

/-- the factory calls of an instruction -/
noncomputable def _root_.Verif.Spec.Instr.build : Instr → Res Item
  | .gate d => do
    let g ← d.build
    pure (.inl (.det g))
  | .choice ps ds => do
    let gs ← ds.mapM GateDesc.build
    let g ← mkProbabilistic (ps.map some) (gs.map .det)
    pure (.inl g)
  | .measure q cbit reset => do
    let g ← mkMeas q cbit reset
    pure (.inl (.meas g))
  | .rot r key => do
    let p ← r.build
    pure (.inr (.rot p, key))
  | .pchoice ps ls key => do
    let gs ← ls.mapM LeafDesc.build
    let p ← mkParamProbabilistic (ps.map some) gs
    pure (.inr (p, key))

/-- `add_gate`, `add_conditional_gate`, `add_param_gate`, `add_conditional_param_gate` -/
noncomputable def addLine (C : Circuit) (l : Line) : Res Circuit := do
  let g ← l.instr.build
  match g, l.cond with
  | .inl g, none => pure (C.addGate g)
  | .inl g, some f => pure (C.addConditionalGate g f)
  | .inr (p, key), none => pure (C.addParamGate p key)
  | .inr (p, key), some f => pure (C.addConditionalParamGate p key f)

/-- the circuit made of some lines -/
noncomputable def buildCircuit (ls : List Line) : Res Circuit := ls.foldlM addLine .empty

theorem addLine_ok {C D : Circuit} {l : Line} (h : addLine C l = .ok D) :
    ∃ g, l.instr.build = .ok g ∧ D = ⟨C.gates ++ [g], C.conds ++ [l.cond]⟩ := by
  unfold addLine at h
  obtain ⟨g, hg, h⟩ := bind_ok h
  refine ⟨g, hg, ?_⟩
  cases hc : l.cond with
  | none =>
    rw [hc] at h
    rcases g with g | ⟨p, key⟩
    · cases h; rfl
    · cases h; rfl
  | some f =>
    rw [hc] at h
    rcases g with g | ⟨p, key⟩
    · cases h; simp [Circuit.addConditionalGate, Circuit.addGate, setBack]
    · cases h; simp [Circuit.addConditionalParamGate, Circuit.addParamGate, setBack]

theorem addLines_ok {ls : List Line} {C D : Circuit} (h : ls.foldlM addLine C = .ok D) :
    ∃ gs, ls.mapM (fun l => l.instr.build) = .ok gs ∧ D = ⟨C.gates ++ gs, C.conds ++ ls.map (·.cond)⟩ := by
  induction ls generalizing C with
  | nil => cases h; exact ⟨[], rfl, by simp⟩
  | cons l ls ih =>
    rw [List.foldlM_cons] at h
    obtain ⟨C', hC, h⟩ := bind_ok h
    obtain ⟨g, hg, rfl⟩ := addLine_ok hC
    obtain ⟨gs, hgs, rfl⟩ := ih h
    refine ⟨g :: gs, ?_, by simp⟩
    rw [List.mapM_cons, hg, ok_bind, hgs]
    rfl

/-- the two vectors of a built circuit -/
theorem buildCircuit_ok {ls : List Line} {C : Circuit} (h : buildCircuit ls = .ok C) :
    ∃ gs, ls.mapM (fun l => l.instr.build) = .ok gs ∧ C = ⟨gs, ls.map (·.cond)⟩ := by
  obtain ⟨gs, h1, rfl⟩ := addLines_ok h
  exact ⟨gs, h1, by simp [Circuit.empty]⟩

/-! ## tables -/

theorem flatAll_leaf {G : Type} {ps : List ℝ} {gs : List G} : flatAll ps (gs.map Component.leaf) = ps.zip gs := by
  unfold flatAll
  induction ps generalizing gs with
  | nil => simp
  | cons p ps ih =>
    cases gs with
    | nil => simp
    | cons g gs =>
      have := ih (gs := gs)
      simpa [flatOf] using this

theorem mkProbTable_leaf {G : Type} {ps : List ℝ} {gs : List G} {t : ProbTable G}
    (h : mkProbTable (ps.map some) (gs.map Component.leaf) = .ok t) : TableOK t ∧ t.dist = ps ∧ t.gates = gs := by
  have hc : ∀ c ∈ gs.map (Component.leaf (G := G)), CompOK c := by
    intro c hc
    obtain ⟨g, -, rfl⟩ := List.mem_map.1 hc
    trivial
  refine ⟨mkProbTable_tableOK hc h, ?_⟩
  obtain ⟨ps', hps, -, hl, -, -, -, rfl⟩ := ((mkProbTable_iff hc).1 t).1 h
  obtain rfl : ps = ps' := List.map_injective_iff.2 (Option.some_injective _) hps
  rw [List.length_map] at hl
  rw [flatAll_leaf]
  exact ⟨List.map_fst_zip (by omega), List.map_snd_zip (by omega)⟩

/-- the entry of a table for an alternative -/
noncomputable def leafOf : LeafDesc → Res PLeaf
  | .fixed d => do
    let g ← d.build
    pure (.fixed g)
  | .rot r => do
    let p ← r.build
    pure (.rot p)

theorem leaves_build {ls : List LeafDesc} {gs : List (Gate ⊕ PGate)} (h : ls.mapM LeafDesc.build = .ok gs) :
    ∃ us, ls.mapM leafOf = .ok us ∧ gs.map eitherComponent = us.map .leaf := by
  induction ls generalizing gs with
  | nil => cases h; exact ⟨[], rfl, rfl⟩
  | cons l ls ih =>
    rw [List.mapM_cons] at h
    obtain ⟨g, hg, h⟩ := bind_ok h
    obtain ⟨gs', hgs, h⟩ := bind_ok h
    cases h
    obtain ⟨us, h1, h2⟩ := ih hgs
    rw [List.mapM_cons, h1]
    cases l with
    | fixed d =>
      obtain ⟨u, hu, hg⟩ := bind_ok (show (do let g ← d.build; pure (Sum.inl (Gate.det g))) = .ok g from hg)
      cases hg
      refine ⟨.fixed u :: us, ?_, by rw [List.map_cons, List.map_cons, h2]; rfl⟩
      show (do let a ← (do let g ← d.build; pure (PLeaf.fixed g)); _) = _
      rw [hu]
      rfl
    | rot r =>
      obtain ⟨u, hu, hg⟩ := bind_ok (show (do let p ← r.build; pure (Sum.inr (PGate.rot p))) = .ok g from hg)
      cases hg
      refine ⟨.rot u :: us, ?_, by rw [List.map_cons, List.map_cons, h2]; rfl⟩
      show (do let a ← (do let p ← r.build; pure (PLeaf.rot p)); _) = _
      rw [hu]
      rfl

/-! ## what each instruction does -/

/-- the arguments satisfy the documented preconditions of the factories -/
def _root_.Verif.Spec.LeafDesc.OK : LeafDesc → Prop
  | .fixed d => DescOK d
  | .rot _ => True

/-- the arguments satisfy the documented preconditions of the factories (sparse matrices are well-formed) -/
def _root_.Verif.Spec.Instr.OK : Instr → Prop
  | .gate d => DescOK d
  | .choice _ ds => ∀ d ∈ ds, DescOK d
  | .pchoice _ ls _ => ∀ l ∈ ls, l.OK
  | _ => True

theorem one_fits {n : Nat} (hn : n < 64) : 1 * 2 ^ n ≤ 2 ^ 64 := by
  have := Nat.pow_le_pow_right (n := 2) (by norm_num) hn.le
  omega

theorem ugate_runs {d : GateDesc} {g : UGate} (hd : DescOK d) (h : d.build = .ok g) {L n : Nat} (hL : LanesOK L) (hn : n < 64)
    (hq : ∀ q ∈ qubitsOf d, q < n) (ψ : U64 → ℂ) (reg : List Bool) (pos : Nat) :
    g.RunsOn L n ⟨ψ, reg, pos⟩ ⟨onState (2 ^ n) (operatorOf d) ψ, reg, pos⟩ none := by
  obtain ⟨dev, hdev, hr⟩ := build_update hd h hL hn (one_fits hn) hq
  unfold UGate.RunsOn
  rw [hdev]
  have := hr ψ
  rw [show onState (1 * 2 ^ n) (operatorOf d) ψ = onState (2 ^ n) (operatorOf d) ψ by rw [Nat.one_mul]] at this
  exact ⟨rfl, rfl, rfl, this⟩

theorem prot_runs {r : RotDesc} {p : PRot} (h : r.build = .ok p) {L n : Nat} (hL : LanesOK L) (hn : n < 64)
    (hq : ∀ q ∈ qubitsOf (r.at 0), q < n) (θ : ℝ) (ψ : U64 → ℂ) (reg : List Bool) (pos : Nat) :
    p.RunsOn L n θ ⟨ψ, reg, pos⟩ ⟨onState (2 ^ n) (operatorOf (r.at θ)) ψ, reg, pos⟩ none := by
  have := ugate_runs (rot_descOK r θ) (rot_build h θ) hL hn (by rw [rot_qubits]; exact hq) ψ reg pos
  unfold UGate.RunsOn at this
  unfold PRot.RunsOn
  rw [rot_update (rot_bounds h hn hq)]
  exact this

theorem leaf_runs {l : LeafDesc} {u : PLeaf} (hok : l.OK) (h : leafOf l = .ok u) {L n : Nat} (hL : LanesOK L) (hn : n < 64)
    (hq : ∀ q ∈ qubitsOf (l.at 0), q < n) (θ : ℝ) (ψ : U64 → ℂ) (reg : List Bool) (pos : Nat) :
    u.RunsOn L n θ ⟨ψ, reg, pos⟩ ⟨onState (2 ^ n) (operatorOf (l.at θ)) ψ, reg, pos⟩ none := by
  cases l with
  | fixed d =>
    obtain ⟨g, hg, h⟩ := bind_ok (show (do let g ← d.build; pure (PLeaf.fixed g)) = .ok u from h)
    cases h
    exact ugate_runs hok hg hL hn hq ψ reg pos
  | rot r =>
    obtain ⟨p, hp, h⟩ := bind_ok (show (do let p ← r.build; pure (PLeaf.rot p)) = .ok u from h)
    cases h
    exact prot_runs hp hL hn hq θ ψ reg pos

/-- an entry applied in a context, without the test of the mask -/
def _root_.Verif.Model.Item.Raw (L n : Nat) (rnd : Nat → ℝ) (θ : String → Option ℝ) (g : Item) (c c' : Context) : Prop :=
  match g with
  | .inl g => g.RunsOn L n rnd c c' none
  | .inr (p, key) => ∃ t, θ key = some t ∧ p.RunsOn L n rnd t c c' none

theorem condIs_unique {l : Line} {reg : List Bool} {a b : Bool} (h1 : l.CondIs reg a) (h2 : l.CondIs reg b) : a = b := by
  unfold Line.CondIs at h1 h2
  cases hc : l.cond with
  | none => rw [hc] at h1 h2; exact h1.trans h2.symm
  | some f =>
    rw [hc] at h1 h2
    have e : (Except.ok a : Res Bool) = .ok b := h1.symm.trans h2
    injection e

theorem item_raw {l : Line} {g : Item} (hb : l.instr.build = .ok g) (hok : l.instr.OK) {L n : Nat} (hL : LanesOK L) (hn : n < 64)
    (hq : ∀ q ∈ l.instr.qubits, q < n) {θ : String → Option ℝ} {s s' : Situation} {us : List ℝ} (he : l.Effect n θ s us s')
    (hc : l.CondIs s.reg true) {rnd : Nat → ℝ} {pos : Nat} (hr : ∀ i (hi : i < us.length), rnd (pos + i) = us[i]) :
    Item.Raw L n rnd θ g ⟨s.psi, s.reg, pos⟩ ⟨s'.psi, s'.reg, pos + us.length⟩ := by
  cases he with
  | skip _ _ hf => exact absurd (condIs_unique hc hf) (by simp)
  | gate d c _ _ hm =>
    obtain ⟨g, hg, hb⟩ := bind_ok (show (do let g ← d.build; pure (Sum.inl (Gate.det g))) = .ok g from hb)
    cases hb
    exact ugate_runs hok hg hL hn hq _ _ _
  | choice ps ds c _ u k hk _ hm hp =>
    obtain ⟨gs, hgs, hb⟩ := bind_ok (show (do
      let gs ← ds.mapM GateDesc.build
      let g ← mkProbabilistic (ps.map some) (gs.map .det)
      pure (Sum.inl g)) = .ok g from hb)
    obtain ⟨g, hg, hb⟩ := bind_ok hb
    cases hb
    obtain ⟨t, ht, hg⟩ := bind_ok (show (do
      let t ← mkProbTable (ps.map some) ((gs.map Gate.det).map Gate.component)
      pure (Gate.prob t)) = .ok g from hg)
    cases hg
    rw [List.map_map, show Gate.component ∘ Gate.det = Component.leaf from rfl] at ht
    obtain ⟨hok', rfl, rfl⟩ := mkProbTable_leaf ht
    obtain ⟨hl, hget⟩ := mapM_get GateDesc.build hgs
    obtain ⟨u', hu', hbu⟩ := hget k _ (List.getElem?_eq_getElem hk)
    have hk' : k < t.gates.length := by omega
    rw [List.getElem?_eq_getElem hk'] at hu'
    obtain rfl := Option.some.inj hu'
    have hsel := select_spec hok' hk' hp.2.1 (by rw [← hok'.len]; exact hp.2.2)
    have hr0 := hr 0 (by simp)
    rw [Nat.add_zero, List.getElem_cons_zero] at hr0
    show Gate.RunsOn L n rnd (.prob t) _ _ none
    unfold Gate.RunsOn
    dsimp only
    rw [hr0, hsel]
    exact ugate_runs (hok _ (List.getElem_mem hk)) hbu hL hn
      (fun q hh => hq q (List.mem_flatMap.2 ⟨_, List.getElem_mem hk, hh⟩)) _ _ _
  | measure q cbit reset c _ u b _ hm hcb h1 hub h0 =>
    obtain ⟨g, hg, hb⟩ := bind_ok (show (do let g ← mkMeas q cbit reset; pure (Sum.inl (Gate.meas g))) = .ok g from hb)
    cases hb
    have hqn : q < n := hq q (by simp [Instr.qubits])
    have hr0 := hr 0 (by simp)
    rw [Nat.add_zero, List.getElem_cons_zero] at hr0
    show MeasGate.RunsOn L n rnd g _ _ none
    unfold MeasGate.RunsOn
    dsimp only
    rw [(meas_check_ok hg (by omega) (len := s.reg.length)).1.2 ⟨hqn, hcb⟩]
    refine measureAndStore_spec hg hL (by omega) hqn hcb h1 ?_ h0
    rw [hr0]
    cases b <;> simp_all
  | rot r key t c _ _ hm ht =>
    obtain ⟨p, hp, hb⟩ := bind_ok (show (do let p ← r.build; pure (Sum.inr (PGate.rot p, key))) = .ok g from hb)
    cases hb
    exact ⟨t, ht, prot_runs hp hL hn hq _ _ _ _⟩
  | pchoice ps ls key t c _ u k hk _ hm ht hp =>
    obtain ⟨gs, hgs, hb⟩ := bind_ok (show (do
      let gs ← ls.mapM LeafDesc.build
      let p ← mkParamProbabilistic (ps.map some) gs
      pure (Sum.inr (p, key))) = .ok g from hb)
    obtain ⟨p, hpb, hb⟩ := bind_ok hb
    cases hb
    obtain ⟨tb, htb, hpb⟩ := bind_ok (show (do
      let t ← mkProbTable (ps.map some) (gs.map eitherComponent)
      pure (PGate.prob t)) = .ok p from hpb)
    cases hpb
    obtain ⟨us, hus, he⟩ := leaves_build hgs
    rw [he] at htb
    obtain ⟨hok', rfl, rfl⟩ := mkProbTable_leaf htb
    obtain ⟨hl, hget⟩ := mapM_get leafOf hus
    obtain ⟨u', hu', hbu⟩ := hget k _ (List.getElem?_eq_getElem hk)
    have hk' : k < tb.gates.length := by omega
    rw [List.getElem?_eq_getElem hk'] at hu'
    obtain rfl := Option.some.inj hu'
    have hsel := select_spec hok' hk' hp.2.1 (by rw [← hok'.len]; exact hp.2.2)
    have hr0 := hr 0 (by simp)
    rw [Nat.add_zero, List.getElem_cons_zero] at hr0
    refine ⟨t, ht, ?_⟩
    unfold PGate.RunsOn
    dsimp only
    rw [hr0, hsel]
    exact leaf_runs (hok _ (List.getElem_mem hk)) hbu hL hn
      (fun q hh => hq q (List.mem_flatMap.2 ⟨_, List.getElem_mem hk, hh⟩)) _ _ _ _

end Verif.Proofs
