import Verif.Proofs.CircuitBatched
import Verif.Props.RandomGate

/-! # C38, C43, C44: circuits

A circuit is given by its lines (`Spec/Circuit.lean`); `buildCircuit` calls the factories and `add_…` functions for them.
`History` says what the lines do one after another; `uss` are the random numbers they use. -/

namespace Verif.Props
open Verif Verif.Spec Verif.Model Verif.Proofs
attribute [-simp] BitVec.getLsbD_eq_getElem

/-- `C` was built from the lines `ls`, which fit on `n` qubits -/
structure CircuitOf (ls : List Line) (C : Circuit) (n : Nat) : Prop where
  built : buildCircuit ls = .ok C
  args : ∀ l ∈ ls, l.instr.OK
  qubits : ∀ l ∈ ls, ∀ q ∈ l.instr.qubits, q < n

/-- every parameter the lines need is supplied -/
def KeysGiven {α : Type} (ls : List Line) (θ : String → Option α) : Prop := ∀ l ∈ ls, ∀ k, l.instr.key? = some k → ∃ t, θ k = some t

/-- the engine delivers these numbers first -/
def Draws (rnd : Nat → ℝ) (us : List ℝ) : Prop := ∀ i (hi : i < us.length), rnd i = us[i]

theorem check_ok {ls : List Line} {C : Circuit} {n : Nat} (h : CircuitOf ls C n) {θ : String → Option ℝ} (hk : KeysGiven ls θ) :
    C.check n θ = .ok () := by
  obtain ⟨gs, hgs, rfl⟩ := buildCircuit_ok h.built
  unfold Circuit.check
  rw [(checkQubits_iff hgs h.args n).1.2 h.qubits, ok_bind, checkKeys_iff.1]
  intro p k hm
  obtain ⟨l, hl, hlk⟩ := (built_keys hgs k).1 ⟨p, hm⟩
  obtain ⟨t, ht⟩ := hk l hl k hlk
  rw [ht]; simp

theorem built_lengths {ls : List Line} {C : Circuit} (h : buildCircuit ls = .ok C) : C.conds.length = C.gates.length := by
  obtain ⟨gs, hgs, rfl⟩ := buildCircuit_ok h
  have := (mapM_get _ hgs).1
  simp [this]

/-! ## C38 -/

/-- **C38, C44.** If the lines, taken in insertion order, turn `ψ` and the register into `ψ'` and `reg'` (conditional lines are skipped
exactly when their condition is false), the update of a circuit built from them has exactly this outcome. -/
theorem C38_in_order {ls : List Line} {C : Circuit} {L n : Nat} (h : CircuitOf ls C n) (hL : LanesOK L) (hn : n < 64)
    {θ : String → Option ℝ} (hk : KeysGiven ls θ) {ψ ψ' : U64 → ℂ} {reg reg' : List Bool} {ms : List Nat} {uss : List (List ℝ)}
    (hh : History n θ ls ⟨ψ, reg, []⟩ uss ⟨ψ', reg', ms⟩) {rnd : Nat → ℝ} (hr : Draws rnd uss.flatten) (c' : Context)
    (f : Option Fault) : C.RunsOn L n rnd θ ψ reg c' f ↔ c' = ⟨ψ', reg', uss.flatten.length⟩ ∧ f = none := by
  have hrun : C.RunsOn L n rnd θ ψ reg ⟨ψ', reg', uss.flatten.length⟩ none := by
    unfold Circuit.RunsOn
    rw [check_ok h hk]
    dsimp only
    have hlen := built_lengths h.built
    obtain ⟨gs, hgs, rfl⟩ := buildCircuit_ok h.built
    obtain ⟨m, -, hs⟩ := history_run hgs h.args hL hn h.qubits hh (rnd := rnd) (pos := 0)
      (fun i hi => by rw [Nat.zero_add]; exact hr i hi) (m := 0) (fun i hi => by rw [zero_bit] at hi; simp at hi)
    rw [Nat.zero_add] at hs
    exact ⟨m, (circuit_loop hlen).2 hs⟩
  constructor
  · intro h'
    exact Proofs.Circuit.runsOn_unique h' hrun
  · rintro ⟨rfl, rfl⟩
    exact hrun

/-- unconditional gates and parametric rotations only -/
def Line.Plain (l : Line) : Prop := l.cond = none ∧ match l.instr with
  | .gate _ => True
  | .rot _ _ => True
  | _ => False

/-- the operator of a plain line -/
noncomputable def Line.operator (θ : String → Option ℝ) (l : Line) : (U64 → ℂ) → U64 → ℂ :=
  match l.instr with
  | .gate d => operatorOf d
  | .rot r k => match θ k with
    | some t => operatorOf (r.at t)
    | none => id
  | _ => id

theorem plain_history {n : Nat} {θ : String → Option ℝ} {ls : List Line} (hp : ∀ l ∈ ls, Line.Plain l) (hk : KeysGiven ls θ)
    (ψ : U64 → ℂ) (reg : List Bool) : History n θ ls ⟨ψ, reg, []⟩ (ls.map fun _ => [])
      ⟨ls.foldl (fun φ l => onState (2 ^ n) (Line.operator θ l) φ) ψ, reg, []⟩ := by
  induction ls generalizing ψ with
  | nil => exact History.nil _
  | cons l ls ih =>
    obtain ⟨hc, hi⟩ := hp l List.mem_cons_self
    have hrest := ih (fun l hl => hp l (List.mem_cons_of_mem _ hl)) (fun l hl => hk l (List.mem_cons_of_mem _ hl))
      (onState (2 ^ n) (Line.operator θ l) ψ)
    refine History.cons _ _ _ _ _ _ _ ?_ hrest
    obtain ⟨ins, cond⟩ := l
    dsimp only at hc hi
    subst hc
    cases ins with
    | gate d => exact Line.Effect.gate d none ⟨ψ, reg, []⟩ rfl (fun q hq => by simp at hq)
    | rot r k =>
      obtain ⟨t, ht⟩ := hk _ List.mem_cons_self k rfl
      have := Line.Effect.rot (n := n) r k t none ⟨ψ, reg, []⟩ rfl (fun q hq => by simp at hq) ht
      unfold Line.operator
      dsimp only
      rw [ht]
      exact this
    | choice => exact hi.elim
    | measure => exact hi.elim
    | pchoice => exact hi.elim

/-- **C38.** A circuit of gates and parametric rotations applies their operators one after another, in insertion order. -/
theorem C38_operators {ls : List Line} {C : Circuit} {L n : Nat} (h : CircuitOf ls C n) (hL : LanesOK L) (hn : n < 64)
    {θ : String → Option ℝ} (hk : KeysGiven ls θ) (hp : ∀ l ∈ ls, Line.Plain l) (ψ : U64 → ℂ) (rnd : Nat → ℝ) (ψ' : U64 → ℂ)
    (f : Option Fault) : C.RunsPlain L n rnd θ ψ ψ' f ↔
      ψ' = ls.foldl (fun φ l => onState (2 ^ n) (Line.operator θ l) φ) ψ ∧ f = none := by
  have hcl : C.hasClassical = false := by
    obtain ⟨gs, hgs, rfl⟩ := buildCircuit_ok h.built
    unfold Circuit.hasClassical
    rw [Bool.or_eq_false_iff]
    constructor
    · rw [List.any_eq_false]
      intro c hc
      obtain ⟨l, hl, rfl⟩ := List.mem_map.1 hc
      rw [(hp l hl).1]
      simp
    · rw [List.any_eq_false]
      intro g hg
      obtain ⟨l, hl, hQ⟩ := (mem_built hgs (fun l : Line => l.instr.build = .ok g) (fun g' : Item => g' = g) (by
        intro l hl b hb
        rw [hb]
        exact ⟨fun e => by rw [e], fun e => by injection e⟩)).1 ⟨g, hg, rfl⟩
      have hpl := (hp l hl).2
      obtain ⟨ins, cond⟩ := l
      cases ins with
      | gate d =>
        obtain ⟨u, hu, hb⟩ := bind_ok (show (do let g ← d.build; pure (Sum.inl (Gate.det g))) = .ok g from hQ)
        cases hb; simp
      | rot r k =>
        obtain ⟨p, hp, hb⟩ := bind_ok (show (do let p ← r.build; pure (Sum.inr (PGate.rot p, k))) = .ok g from hQ)
        cases hb; simp
      | choice => exact hpl.elim
      | measure => exact hpl.elim
      | pchoice => exact hpl.elim
  have hrun := C38_in_order h hL hn hk (plain_history (n := n) hp hk ψ []) (rnd := rnd) (by
    intro i hi
    simp at hi)
  unfold Circuit.RunsPlain
  rw [hcl]
  simp only [Bool.false_eq_true, if_false]
  constructor
  · rintro ⟨c', hc, rfl⟩
    obtain ⟨rfl, rfl⟩ := (hrun c' f).1 hc
    exact ⟨rfl, rfl⟩
  · rintro ⟨rfl, rfl⟩
    exact ⟨_, (hrun _ none).2 ⟨rfl, rfl⟩, rfl⟩

theorem history_append {n : Nat} {θ : String → Option ℝ} {la lb : List Line} {s s1 s2 : Situation} {us vs : List (List ℝ)}
    (h1 : History n θ la s us s1) (h2 : History n θ lb s1 vs s2) : History n θ (la ++ lb) s (us ++ vs) s2 := by
  induction h1 with
  | nil s => exact h2
  | cons l ls s s1 s2 us uss he _ ih => exact History.cons _ _ _ _ _ _ _ he (ih h2)

theorem effect_weaken {n : Nat} {θ : String → Option ℝ} {l : Line} {s s' : Situation} {us : List ℝ} (he : l.Effect n θ s us s')
    {ms : List Nat} (hms : ∀ q ∈ ms, q ∈ s.measured) :
    ∃ ms', (∀ q ∈ ms', q ∈ s'.measured) ∧ l.Effect n θ ⟨s.psi, s.reg, ms⟩ us ⟨s'.psi, s'.reg, ms'⟩ := by
  cases he with
  | skip _ _ hf => exact ⟨ms, hms, .skip _ ⟨s.psi, s.reg, ms⟩ hf⟩
  | gate d c _ hc hm => exact ⟨ms, hms, .gate d c ⟨s.psi, s.reg, ms⟩ hc fun q hq => hm q (hms q hq)⟩
  | choice ps ds c _ u k hk hc hm hp =>
    exact ⟨ms, hms, .choice ps ds c ⟨s.psi, s.reg, ms⟩ u k hk hc (fun q hq => hm q (hms q hq)) hp⟩
  | measure q cbit reset c _ u b hc hm hcb h1 hub h0 =>
    refine ⟨if reset then ms else q :: ms, ?_, .measure q cbit reset c ⟨s.psi, s.reg, ms⟩ u b hc (fun hq => hm (hms q hq)) hcb h1 hub h0⟩
    cases reset with
    | true => exact hms
    | false =>
      intro p hp
      rcases List.mem_cons.1 (show p ∈ q :: ms from hp) with rfl | hp
      · exact List.mem_cons_self
      · exact List.mem_cons_of_mem _ (hms p hp)
  | rot r key t c _ hc hm ht => exact ⟨ms, hms, .rot r key t c ⟨s.psi, s.reg, ms⟩ hc (fun q hq => hm q (hms q hq)) ht⟩
  | pchoice ps ls key t c _ u k hk hc hm ht hp =>
    exact ⟨ms, hms, .pchoice ps ls key t c ⟨s.psi, s.reg, ms⟩ u k hk hc (fun q hq => hm q (hms q hq)) ht hp⟩

theorem history_weaken {n : Nat} {θ : String → Option ℝ} {ls : List Line} {s s' : Situation} {uss : List (List ℝ)}
    (hh : History n θ ls s uss s') {ms : List Nat} (hms : ∀ q ∈ ms, q ∈ s.measured) :
    ∃ ms', History n θ ls ⟨s.psi, s.reg, ms⟩ uss ⟨s'.psi, s'.reg, ms'⟩ := by
  induction hh generalizing ms with
  | nil s => exact ⟨ms, .nil _⟩
  | cons l ls s s1 s2 us uss he _ ih =>
    obtain ⟨ms1, h1, he'⟩ := effect_weaken he hms
    obtain ⟨ms2, hh'⟩ := ih h1
    exact ⟨ms2, .cons _ _ _ _ _ _ _ he' hh'⟩

theorem built_append {la lb : List Line} {A B : Circuit} (hA : buildCircuit la = .ok A) (hB : buildCircuit lb = .ok B) :
    buildCircuit (la ++ lb) = .ok (A.addCircuit B) := by
  have key : ∀ (ls : List Line) (C D E : Circuit), ls.foldlM addLine C = .ok E →
      ls.foldlM addLine (D.addCircuit C) = .ok (D.addCircuit E) := by
    intro ls
    induction ls with
    | nil => intro C D E h; cases h; rfl
    | cons l ls ih =>
      intro C D E h
      rw [List.foldlM_cons] at h ⊢
      obtain ⟨C', hC, h⟩ := bind_ok h
      have : addLine (D.addCircuit C) l = .ok (D.addCircuit C') := by
        unfold addLine at hC ⊢
        obtain ⟨g, hg, hC⟩ := bind_ok hC
        rw [hg, ok_bind]
        cases hc : l.cond with
        | none =>
          rw [hc] at hC
          rcases g with g | ⟨p, key⟩
          · cases hC; simp [Circuit.addGate, Circuit.addCircuit]; rfl
          · cases hC; simp [Circuit.addParamGate, Circuit.addCircuit]; rfl
        | some f =>
          rw [hc] at hC
          rcases g with g | ⟨p, key⟩
          · cases hC; simp [Circuit.addConditionalGate, Circuit.addGate, Circuit.addCircuit, setBack]; rfl
          · cases hC; simp [Circuit.addConditionalParamGate, Circuit.addParamGate, Circuit.addCircuit, setBack]; rfl
      rw [this, ok_bind]
      exact ih _ _ _ h
  unfold buildCircuit at hA hB ⊢
  rw [List.foldlM_append, hA, ok_bind]
  have := key lb .empty A B hB
  rwa [show A.addCircuit Circuit.empty = A by simp [Circuit.addCircuit, Circuit.empty]] at this

/-- **C38 (appending).** `add_circuit`: if A does what its history says and B (not touching a qubit that A measured without reset) does
what its history says, then running A, then B gives the same state, register and random numbers used as running A with B appended. -/
theorem C38_append {la lb : List Line} {A B : Circuit} {L n : Nat} (hA : CircuitOf la A n) (hB : CircuitOf lb B n) (hL : LanesOK L)
    (hn : n < 64) {θ : String → Option ℝ} (hka : KeysGiven la θ) (hkb : KeysGiven lb θ) {ψ ψ1 ψ2 : U64 → ℂ} {reg reg1 reg2 : List Bool}
    {ms1 ms2 : List Nat} {us vs : List (List ℝ)} (h1 : History n θ la ⟨ψ, reg, []⟩ us ⟨ψ1, reg1, ms1⟩)
    (h2 : History n θ lb ⟨ψ1, reg1, ms1⟩ vs ⟨ψ2, reg2, ms2⟩) {ra rb rc : Nat → ℝ} (hra : Draws ra us.flatten)
    (hrb : Draws rb vs.flatten) (hrc : Draws rc (us.flatten ++ vs.flatten)) :
    (∀ c f, A.RunsOn L n ra θ ψ reg c f ↔ c = ⟨ψ1, reg1, us.flatten.length⟩ ∧ f = none) ∧
    (∀ c f, B.RunsOn L n rb θ ψ1 reg1 c f ↔ c = ⟨ψ2, reg2, vs.flatten.length⟩ ∧ f = none) ∧
    (∀ c f, (A.addCircuit B).RunsOn L n rc θ ψ reg c f ↔ c = ⟨ψ2, reg2, us.flatten.length + vs.flatten.length⟩ ∧ f = none) := by
  refine ⟨C38_in_order hA hL hn hka h1 hra, ?_, ?_⟩
  · obtain ⟨ms, h2'⟩ := history_weaken h2 (ms := []) (by simp)
    exact C38_in_order hB hL hn hkb h2' hrb
  · have := C38_in_order (C := A.addCircuit B) (L := L) (n := n) ⟨built_append hA.built hB.built, fun l hl => ?_, fun l hl => ?_⟩ hL hn
      (θ := θ) ?_ (history_append h1 h2) (rnd := rc) (by rw [List.flatten_append]; exact hrc)
    · rw [List.flatten_append, List.length_append] at this
      exact this
    · exact (List.mem_append.1 hl).elim (hA.args l) (hB.args l)
    · exact (List.mem_append.1 hl).elim (hA.qubits l) (hB.qubits l)
    · intro l hl
      exact (List.mem_append.1 hl).elim (hka l) (hkb l)

/-! ### every run of a sensible circuit exists -/

/-- the gates of an instruction are unitary -/
def Unitaries : Instr → Prop
  | .gate d => UnitaryDesc d
  | .choice _ ds => ∀ d ∈ ds, UnitaryDesc d
  | .measure _ _ _ => True
  | .rot r _ => UnitaryDesc (r.at 0)
  | .pchoice _ ls _ => ∀ l ∈ ls, UnitaryDesc (l.at 0)

/-- no line touches a qubit that an earlier line measured without reset -/
def Clear : List Nat → List Line → Prop
  | _, [] => True
  | ms, l :: ls => (∀ q ∈ ms, q ∉ l.instr.qubits) ∧ Clear (match l.instr with
    | .measure q _ false => q :: ms
    | _ => ms) ls

/-- measurements write inside a register of this length, conditions can be evaluated on it -/
def RegisterOK (len : Nat) (l : Line) : Prop :=
  (∀ q cbit reset, l.instr = .measure q cbit reset → cbit < len) ∧
  ∀ f, l.cond = some f → ∀ r : List Bool, r.length = len → ∃ b, f r = .ok b

theorem unitary_rot {r : RotDesc} (h : UnitaryDesc (r.at 0)) (t : ℝ) : UnitaryDesc (r.at t) := by
  cases r with
  | axis a tg k cs vs => cases a <;> exact ⟨by simp, by simp⟩
  | pauli p k cs vs => exact h

theorem norm_gate {d : GateDesc} {g : UGate} (hd : DescOK d) (hu : UnitaryDesc d) (h : d.build = .ok g) {n : Nat} (hn : n < 64)
    (hq : ∀ q ∈ qubitsOf d, q < n) (ψ : U64 → ℂ) :
    normSq (2 ^ n) (onState (2 ^ n) (operatorOf d) ψ) = normSq (2 ^ n) ψ := by
  obtain ⟨hv, he, hs⟩ := build_valid hd h
  have := normSq_valid hv (unitaryHyp_of hd h hu) (n := n) (B := 1) (one_fits hn) (build_bounds hs hq).1 ψ
  rw [Nat.one_mul, he] at this
  rw [← this]
  unfold normSq
  refine Finset.sum_congr rfl fun j hj => ?_
  rw [show onState (2 ^ n) (operatorOf d) ψ j = operatorOf d ψ j from if_pos ((mem_indices (pow64 (by omega))).1 hj)]

/-- what one line can do from a normalised state -/
theorem effect_exists {l : Line} {g : Item} (hb : l.instr.build = .ok g) (hok : l.instr.OK) {n : Nat} (hn : n < 64)
    (hq : ∀ q ∈ l.instr.qubits, q < n) (hu : Unitaries l.instr) {θ : String → Option ℝ}
    (hk : ∀ k, l.instr.key? = some k → ∃ t, θ k = some t) {s : Situation} (hnorm : normSq (2 ^ n) s.psi = 1)
    (hfree : ∀ q ∈ s.measured, q ∉ l.instr.qubits) (hreg : RegisterOK s.reg.length l) {u : ℝ} (hu0 : 0 ≤ u) (hu1 : u < 1) :
    ∃ us s', l.Effect n θ s us s' ∧ (us = [] ∨ us = [u]) ∧ normSq (2 ^ n) s'.psi = 1 ∧ s'.reg.length = s.reg.length ∧
      ∀ q ∈ s'.measured, q ∈ s.measured ∨ ∃ cbit, l.instr = .measure q cbit false := by
  have hcond : l.CondIs s.reg true ∨ l.CondIs s.reg false := by
    unfold Line.CondIs
    cases hc : l.cond with
    | none => exact Or.inl rfl
    | some f =>
      obtain ⟨b, hb⟩ := hreg.2 f hc s.reg rfl
      cases b with
      | true => exact Or.inl hb
      | false => exact Or.inr hb
  rcases hcond with hc | hc
  swap
  · exact ⟨[], s, .skip _ _ hc, Or.inl rfl, hnorm, rfl, fun q h => Or.inl h⟩
  obtain ⟨ins, cond⟩ := l
  dsimp only at hb hok hq hu hk hfree
  cases ins with
  | gate d =>
    obtain ⟨g, hg, hb⟩ := bind_ok (show (do let g ← d.build; pure (Sum.inl (Gate.det g))) = .ok g from hb)
    exact ⟨[], _, .gate d cond s hc hfree, Or.inl rfl, (norm_gate hok hu hg hn hq _).trans hnorm, rfl, fun q h => Or.inl h⟩
  | choice ps ds =>
    obtain ⟨gs, hgs, hb⟩ := bind_ok (show (do
      let gs ← ds.mapM GateDesc.build
      let g ← mkProbabilistic (ps.map some) (gs.map .det)
      pure (Sum.inl g)) = .ok g from hb)
    obtain ⟨g, hg, hb⟩ := bind_ok hb
    obtain ⟨t, ht, hg⟩ := bind_ok (show (do
      let t ← mkProbTable (ps.map some) ((gs.map Gate.det).map Gate.component)
      pure (Gate.prob t)) = .ok g from hg)
    rw [List.map_map, show Gate.component ∘ Gate.det = Component.leaf from rfl] at ht
    obtain ⟨hok', rfl, rfl⟩ := mkProbTable_leaf ht
    obtain ⟨hl, hget⟩ := mapM_get GateDesc.build hgs
    obtain ⟨k, hk1, hk2, hk3⟩ := select_total hok' hu0
    have hkd : k < ds.length := by omega
    obtain ⟨v, -, hbu⟩ := hget k _ (List.getElem?_eq_getElem hkd)
    have hmem : ds[k] ∈ ds := List.getElem_mem hkd
    refine ⟨[u], _, .choice t.dist ds cond s u k hkd hc (fun q hq d hd h => hfree q hq (List.mem_flatMap.2 ⟨d, hd, h⟩))
      ⟨by rw [hok'.len]; exact hk1, hk2, by rw [hok'.len]; exact hk3⟩, Or.inr rfl, ?_, rfl, fun q h => Or.inl h⟩
    exact (norm_gate (hok _ hmem) (hu _ hmem) hbu hn (fun q h => hq q (List.mem_flatMap.2 ⟨_, hmem, h⟩)) _).trans hnorm
  | measure q cbit reset =>
    obtain ⟨h1, h0⟩ := outcome_spec (q := q) hnorm hu0 hu1
    refine ⟨[u], _, .measure q cbit reset cond s u (outcome n q s.psi u) hc (fun h => hfree q h (by simp [Instr.qubits]))
      (hreg.1 q cbit reset rfl) h1 (by unfold outcome; simp) h0, Or.inr rfl, ?_, by simp, ?_⟩
    · exact (C35_repeatable (by omega) (hq q (by simp [Instr.qubits])) _ reset s.psi h0).1
    · intro p hp
      cases reset with
      | true => exact Or.inl hp
      | false =>
        rcases List.mem_cons.1 (show p ∈ q :: s.measured from hp) with rfl | hp
        · exact Or.inr ⟨cbit, rfl⟩
        · exact Or.inl hp
  | rot r key =>
    obtain ⟨p, hp, hb⟩ := bind_ok (show (do let p ← r.build; pure (Sum.inr (PGate.rot p, key))) = .ok g from hb)
    obtain ⟨t, ht⟩ := hk key rfl
    refine ⟨[], _, .rot r key t cond s hc hfree ht, Or.inl rfl, ?_, rfl, fun q h => Or.inl h⟩
    exact (norm_gate (rot_descOK r t) (unitary_rot hu t) (rot_build hp t) hn (by rw [rot_qubits]; exact hq) _).trans hnorm
  | pchoice ps ls key =>
    obtain ⟨gs, hgs, hb⟩ := bind_ok (show (do
      let gs ← ls.mapM LeafDesc.build
      let p ← mkParamProbabilistic (ps.map some) gs
      pure (Sum.inr (p, key))) = .ok g from hb)
    obtain ⟨p, hpb, hb⟩ := bind_ok hb
    obtain ⟨tb, htb, hpb⟩ := bind_ok (show (do
      let t ← mkProbTable (ps.map some) (gs.map eitherComponent)
      pure (PGate.prob t)) = .ok p from hpb)
    obtain ⟨us, hus, he⟩ := leaves_build hgs
    rw [he] at htb
    obtain ⟨hok', rfl, rfl⟩ := mkProbTable_leaf htb
    obtain ⟨hl, hget⟩ := mapM_get leafOf hus
    obtain ⟨k, hk1, hk2, hk3⟩ := select_total hok' hu0
    have hkd : k < ls.length := by omega
    obtain ⟨v, -, hbu⟩ := hget k _ (List.getElem?_eq_getElem hkd)
    have hmem : ls[k] ∈ ls := List.getElem_mem hkd
    obtain ⟨t, ht⟩ := hk key rfl
    have hqk : ∀ q ∈ qubitsOf (ls[k].at 0), q < n := fun q h => hq q (List.mem_flatMap.2 ⟨_, hmem, h⟩)
    refine ⟨[u], _, .pchoice tb.dist ls key t cond s u k hkd hc (fun q hq d hd h => hfree q hq (List.mem_flatMap.2 ⟨d, hd, h⟩)) ht
      ⟨by rw [hok'.len]; exact hk1, hk2, by rw [hok'.len]; exact hk3⟩, Or.inr rfl, ?_, rfl, fun q h => Or.inl h⟩
    have hou := hu _ hmem
    have hoo := hok _ hmem
    generalize ls[k] = x at *
    cases x with
    | fixed d =>
      obtain ⟨g, hg, -⟩ := bind_ok (show (do let g ← d.build; pure (PLeaf.fixed g)) = .ok v from hbu)
      exact (norm_gate hoo hou hg hn hqk _).trans hnorm
    | rot r =>
      obtain ⟨p, hp, -⟩ := bind_ok (show (do let p ← r.build; pure (PLeaf.rot p)) = .ok v from hbu)
      exact (norm_gate (rot_descOK r t) (unitary_rot hou t) (rot_build hp t) hn
        (fun q h => hqk q (by have h' : q ∈ qubitsOf (r.at t) := h; rw [rot_qubits] at h'; exact h')) _).trans hnorm

theorem history_exists {ls : List Line} {gs : List Item} (hb : ls.mapM (fun l => l.instr.build) = .ok gs) (hok : ∀ l ∈ ls, l.instr.OK)
    {n : Nat} (hn : n < 64) (hq : ∀ l ∈ ls, ∀ q ∈ l.instr.qubits, q < n) (hu : ∀ l ∈ ls, Unitaries l.instr)
    {θ : String → Option ℝ} (hk : KeysGiven ls θ) {len : Nat} (hreg : ∀ l ∈ ls, RegisterOK len l) {ms : List Nat} (hcl : Clear ms ls)
    {s : Situation} (hnorm : normSq (2 ^ n) s.psi = 1) (hlen : s.reg.length = len) (hms : ∀ q ∈ s.measured, q ∈ ms)
    {rnd : Nat → ℝ} (hr : ∀ i, 0 ≤ rnd i ∧ rnd i < 1) (pos : Nat) :
    ∃ uss s', History n θ ls s uss s' ∧ (∀ i (hi : i < uss.flatten.length), rnd (pos + i) = uss.flatten[i]) ∧
      normSq (2 ^ n) s'.psi = 1 ∧ s'.reg.length = len := by
  induction ls generalizing gs s ms pos with
  | nil => exact ⟨[], s, .nil _, fun i hi => by simp at hi, hnorm, hlen⟩
  | cons l ls ih =>
    rw [List.mapM_cons] at hb
    obtain ⟨g, hg, hb⟩ := bind_ok hb
    obtain ⟨gs', hgs, hb⟩ := bind_ok hb
    obtain ⟨hc1, hc2⟩ := hcl
    obtain ⟨us, s1, he, hus, hn1, hl1, hm1⟩ := effect_exists hg (hok l List.mem_cons_self) hn (hq l List.mem_cons_self)
      (hu l List.mem_cons_self) (hk l List.mem_cons_self) hnorm (fun q h => hc1 q (hms q h))
      (by rw [hlen]; exact hreg l List.mem_cons_self) (hr pos).1 (hr pos).2
    obtain ⟨uss, s2, hh, hr2, hn2, hl2⟩ := ih hgs (fun l hl => hok l (List.mem_cons_of_mem _ hl))
      (fun l hl => hq l (List.mem_cons_of_mem _ hl)) (fun l hl => hu l (List.mem_cons_of_mem _ hl))
      (fun l hl => hk l (List.mem_cons_of_mem _ hl)) (fun l hl => hreg l (List.mem_cons_of_mem _ hl)) hc2 hn1
      (hl1.trans hlen) (fun q h => by
        rcases hm1 q h with h | ⟨cbit, e⟩
        · have := hms q h
          split
          · exact List.mem_cons_of_mem _ this
          · exact this
        · rw [e]; exact List.mem_cons_self) (pos + us.length)
    refine ⟨us :: uss, s2, .cons _ _ _ _ _ _ _ he hh, fun i hi => ?_, hn2, hl2⟩
    simp only [List.flatten_cons]
    by_cases hil : i < us.length
    · rw [List.getElem_append_left hil]
      rcases hus with rfl | rfl
      · simp at hil
      · simp only [List.length_singleton, Nat.lt_one_iff] at hil
        subst hil; rfl
    · rw [List.getElem_append_right (by omega)]
      have := hr2 (i - us.length) (by simp only [List.flatten_cons, List.length_append] at hi; omega)
      rw [← this]
      congr 1
      omega

/-- **C38 (no faults).** A circuit of unitary gates, random choices between unitary gates and measurements, on a normalised state and
with all parameters given, always finishes, whatever random numbers in `[0, 1)` are drawn: it follows a history of its lines, and the
state stays normalised. -/
theorem C38_total {ls : List Line} {C : Circuit} {L n : Nat} (h : CircuitOf ls C n) (hL : LanesOK L) (hn : n < 64)
    {θ : String → Option ℝ} (hk : KeysGiven ls θ) (hu : ∀ l ∈ ls, Unitaries l.instr) {ψ : U64 → ℂ} {reg : List Bool}
    (hreg : ∀ l ∈ ls, RegisterOK reg.length l) (hcl : Clear [] ls) (hnorm : normSq (2 ^ n) ψ = 1) {rnd : Nat → ℝ}
    (hr : ∀ i, 0 ≤ rnd i ∧ rnd i < 1) :
    ∃ c, normSq (2 ^ n) c.psi = 1 ∧ c.reg.length = reg.length ∧ (∀ c' f, C.RunsOn L n rnd θ ψ reg c' f ↔ c' = c ∧ f = none) ∧
      ∃ uss ms, Draws rnd uss.flatten ∧ c.pos = uss.flatten.length ∧ History n θ ls ⟨ψ, reg, []⟩ uss ⟨c.psi, c.reg, ms⟩ := by
  obtain ⟨gs, hgs, -⟩ := buildCircuit_ok h.built
  obtain ⟨uss, s', hh, hd, hn', hl'⟩ := history_exists hgs h.args hn h.qubits hu hk hreg hcl (s := ⟨ψ, reg, []⟩) hnorm rfl (by simp) hr 0
  have hd' : Draws rnd uss.flatten := fun i hi => by have := hd i hi; rwa [Nat.zero_add] at this
  obtain ⟨ψ', reg', ms⟩ := s'
  exact ⟨⟨ψ', reg', uss.flatten.length⟩, hn', hl', C38_in_order h hL hn hk hh hd', uss, ms, hd', rfl, hh⟩

/-! ## C43 -/

/-- **C43.** If a parameter is missing the update throws and nothing has changed: state, register and random engine are as before. -/
theorem C43_missing {ls : List Line} {C : Circuit} (hb : buildCircuit ls = .ok C) (ha : ∀ l ∈ ls, l.instr.OK) {L n : Nat}
    {θ : String → Option ℝ} {l : Line} (hl : l ∈ ls) {k : String} (hlk : l.instr.key? = some k) (hk : θ k = none) (ψ : U64 → ℂ)
    (reg : List Bool) (rnd : Nat → ℝ) :
    ∃ e, ∀ c' f, C.RunsOn L n rnd θ ψ reg c' f ↔ c' = ⟨ψ, reg, 0⟩ ∧ f = some (.throw e) := by
  obtain ⟨gs, hgs, rfl⟩ := buildCircuit_ok hb
  have hck : ∃ e, Circuit.check ⟨gs, ls.map (·.cond)⟩ n θ = .error (.throw e) := by
    unfold Circuit.check
    cases hq : Circuit.checkQubits ⟨gs, ls.map (·.cond)⟩ n with
    | error e =>
      obtain ⟨s, rfl⟩ := (checkQubits_iff hgs ha n).2 e hq
      exact ⟨s, rfl⟩
    | ok _ =>
      rw [ok_bind]
      obtain ⟨p, hp⟩ := (built_keys hgs k).2 ⟨l, hl, hlk⟩
      cases hc : checkKeys θ gs with
      | ok _ => exact absurd hk (checkKeys_iff.1.1 hc p k hp)
      | error e =>
        obtain ⟨k', rfl, -⟩ := checkKeys_iff.2 e hc
        exact ⟨_, rfl⟩
  obtain ⟨e, he⟩ := hck
  refine ⟨e, fun c' f => ?_⟩
  unfold Circuit.RunsOn
  rw [he]

/-- **C43.** Parameters with other names make no difference. -/
theorem C43_extra {C : Circuit} {L n : Nat} {θ θ' : String → Option ℝ} (h : ∀ k ∈ C.keySet, θ k = θ' k) (rnd : Nat → ℝ)
    (ψ : U64 → ℂ) (reg : List Bool) (c' : Context) (f : Option Fault) :
    C.RunsOn L n rnd θ ψ reg c' f ↔ C.RunsOn L n rnd θ' ψ reg c' f := by
  have hset : ∀ (gs : List Item) (s : Finset String) p k, Sum.inr (p, k) ∈ gs →
      k ∈ gs.foldl (fun s g => match g with | .inl _ => s | .inr (_, k) => insert k s) s := by
    have hmono : ∀ (gs : List Item) (s : Finset String) k, k ∈ s →
        k ∈ gs.foldl (fun s g => match g with | .inl _ => s | .inr (_, k) => insert k s) s := by
      intro gs
      induction gs with
      | nil => intro s k h; exact h
      | cons g gs ih =>
        intro s k h
        rw [List.foldl_cons]
        refine ih _ k ?_
        rcases g with g | ⟨p, k'⟩
        · exact h
        · exact Finset.mem_insert_of_mem h
    intro gs
    induction gs with
    | nil => intro s p k h; simp at h
    | cons g gs ih =>
      intro s p k h
      rw [List.foldl_cons]
      rcases List.mem_cons.1 h with rfl | h
      · exact hmono gs _ k (Finset.mem_insert_self _ _)
      · exact ih _ p k h
  have hkeys : ∀ p k, Sum.inr (p, k) ∈ C.gates → θ k = θ' k := fun p k hp => h k (hset C.gates ∅ p k hp)
  have hcheck : C.check n θ = C.check n θ' := by
    have : ∀ gs : List Item, (∀ p k, Sum.inr (p, k) ∈ gs → θ k = θ' k) → checkKeys θ gs = checkKeys θ' gs := by
      intro gs
      induction gs with
      | nil => intro _; rfl
      | cons g gs ih =>
        intro hg
        have := ih fun p k hp => hg p k (List.mem_cons_of_mem _ hp)
        rcases g with g | ⟨p, k⟩
        · exact this
        · unfold checkKeys
          rw [hg p k List.mem_cons_self, this]
    unfold Circuit.check
    rw [this C.gates hkeys]
  have hstep : ∀ i s s' f, C.StepOn L n rnd θ i s s' f ↔ C.StepOn L n rnd θ' i s s' f := by
    intro i s s' f
    unfold Circuit.StepOn
    cases hc : C.conds[i]? with
    | none => exact Iff.rfl
    | some c =>
      cases hg : C.gates[i]? with
      | none => exact Iff.rfl
      | some g =>
        dsimp only
        cases he : evalCond c s.1.reg with
        | error e => exact Iff.rfl
        | ok b =>
          cases b with
          | false => exact Iff.rfl
          | true =>
            dsimp only
            unfold Item.RunsOn
            rcases g with g | ⟨p, k⟩
            · exact Iff.rfl
            · dsimp only
              rw [hkeys p k (List.mem_of_getElem? hg)]
  unfold Circuit.RunsOn
  rw [hcheck]
  have : C.StepOn L n rnd θ = C.StepOn L n rnd θ' := by
    funext i s s' f
    exact propext (hstep i s s' f)
  rw [this]

/-- **C43 (keys).** `key_set()` are the keys of the lines. -/
theorem C43_keys {ls : List Line} {C : Circuit} (hb : buildCircuit ls = .ok C) (k : String) :
    k ∈ C.keySet ↔ ∃ l ∈ ls, l.instr.key? = some k := by
  obtain ⟨gs, hgs, rfl⟩ := buildCircuit_ok hb
  rw [← built_keys hgs k]
  have : ∀ (gs : List Item) (s : Finset String),
      k ∈ gs.foldl (fun s g => match g with | .inl _ => s | .inr (_, k) => insert k s) s ↔ k ∈ s ∨ ∃ p, Sum.inr (p, k) ∈ gs := by
    intro gs
    induction gs with
    | nil => intro s; simp
    | cons g gs ih =>
      intro s
      rw [List.foldl_cons, ih]
      rcases g with g | ⟨p, k'⟩
      · simp
      · rw [Finset.mem_insert]
        constructor
        · rintro ((rfl | h) | ⟨q, h⟩)
          · exact Or.inr ⟨p, List.mem_cons_self⟩
          · exact Or.inl h
          · exact Or.inr ⟨q, List.mem_cons_of_mem _ h⟩
        · rintro (h | ⟨q, h⟩)
          · exact Or.inl (Or.inr h)
          · rcases List.mem_cons.1 h with e | h
            · injection e with e; injection e with _ e2; exact Or.inl (Or.inl e2)
            · exact Or.inr ⟨q, h⟩
  exact (this gs ∅).trans (by simp)

/-- **C43 (batches).** The same for a batch; a parameter list of the wrong length is rejected as well. -/
theorem C43_batched {ls : List Line} {C : Circuit} (hb : buildCircuit ls = .ok C) (ha : ∀ l ∈ ls, l.instr.OK) {L B n : Nat}
    {params : String → Option (List ℝ)} {l : Line} (hl : l ∈ ls) {k : String} (hlk : l.instr.key? = some k)
    (hk : params k = none ∨ ∃ v, params k = some v ∧ v.length ≠ B) (Ψ : U64 → ℂ) (reg : BReg) (rnd : Nat → ℝ) :
    ∃ e, ∀ c' f, C.RunsBatched L B n rnd params Ψ reg c' f ↔ c' = ⟨Ψ, reg, 0⟩ ∧ f = some (.throw e) := by
  obtain ⟨gs, hgs, rfl⟩ := buildCircuit_ok hb
  have hck : ∃ e, Circuit.checkBatched ⟨gs, ls.map (·.cond)⟩ B n reg params = .error (.throw e) := by
    unfold Circuit.checkBatched
    cases hq : Circuit.checkQubits ⟨gs, ls.map (·.cond)⟩ n with
    | error e =>
      obtain ⟨s, rfl⟩ := (checkQubits_iff hgs ha n).2 e hq
      exact ⟨s, rfl⟩
    | ok _ =>
      rw [ok_bind]
      by_cases hB : reg.regs.length ≠ B
      · rw [if_pos hB]; exact ⟨_, rfl⟩
      · rw [if_neg hB]
        change ∃ e, checkKeysBatched B params gs = _
        obtain ⟨p, hp⟩ := (built_keys hgs k).2 ⟨l, hl, hlk⟩
        cases hc : checkKeysBatched B params gs with
        | ok _ =>
          obtain ⟨v, hv, hvl⟩ := checkKeysBatched_iff.1.1 hc p k hp
          rcases hk with hk | ⟨v', hk, hvl'⟩
          · rw [hk] at hv; cases hv
          · rw [hk] at hv; cases hv; exact absurd hvl hvl'
        | error e =>
          obtain ⟨s, rfl⟩ := checkKeysBatched_iff.2 e hc
          exact ⟨_, rfl⟩
  obtain ⟨e, he⟩ := hck
  refine ⟨e, fun c' f => ?_⟩
  unfold Circuit.RunsBatched
  rw [he]

/-- **C43 (without register).** The same for the overload that takes no classical register. -/
theorem C43_missing_plain {ls : List Line} {C : Circuit} (hb : buildCircuit ls = .ok C) (ha : ∀ l ∈ ls, l.instr.OK) {L n : Nat}
    {θ : String → Option ℝ} {l : Line} (hl : l ∈ ls) {k : String} (hlk : l.instr.key? = some k) (hk : θ k = none) (ψ : U64 → ℂ)
    (rnd : Nat → ℝ) : ∃ e, ∀ ψ' f, C.RunsPlain L n rnd θ ψ ψ' f ↔ ψ' = ψ ∧ f = some (.throw e) := by
  obtain ⟨e, he⟩ := C43_missing hb ha (L := L) (n := n) hl hlk hk ψ [] rnd
  unfold Circuit.RunsPlain
  cases C.hasClassical with
  | true => exact ⟨_, fun ψ' f => Iff.rfl⟩
  | false =>
    refine ⟨e, fun ψ' f => ?_⟩
    simp only [Bool.false_eq_true, if_false]
    constructor
    · rintro ⟨c', hc, rfl⟩
      obtain ⟨rfl, rfl⟩ := (he c' f).1 hc
      exact ⟨rfl, rfl⟩
    · rintro ⟨rfl, rfl⟩
      exact ⟨_, (he _ _).2 ⟨rfl, rfl⟩, rfl⟩

/-- **C43 (batches).** Parameters with other names make no difference. -/
theorem C43_extra_batched {ls : List Line} {C : Circuit} (hb : buildCircuit ls = .ok C) {L B n : Nat}
    {params params' : String → Option (List ℝ)} (h : ∀ l ∈ ls, ∀ k, l.instr.key? = some k → params k = params' k) (rnd : Nat → ℝ)
    (Ψ : U64 → ℂ) (reg : BReg) (c' : BContext) (f : Option Fault) :
    C.RunsBatched L B n rnd params Ψ reg c' f ↔ C.RunsBatched L B n rnd params' Ψ reg c' f := by
  obtain ⟨gs, hgs, rfl⟩ := buildCircuit_ok hb
  have hkeys : ∀ p k, Sum.inr (p, k) ∈ gs → params k = params' k := fun p k hp => by
    obtain ⟨l, hl, hlk⟩ := (built_keys hgs k).1 ⟨p, hp⟩
    exact h l hl k hlk
  generalize ls.map (·.cond) = conds
  have hcheck : Circuit.checkBatched ⟨gs, conds⟩ B n reg params = Circuit.checkBatched ⟨gs, conds⟩ B n reg params' := by
    have : ∀ gs : List Item, (∀ p k, Sum.inr (p, k) ∈ gs → params k = params' k) →
        checkKeysBatched B params gs = checkKeysBatched B params' gs := by
      intro gs
      induction gs with
      | nil => intro _; rfl
      | cons g gs ih =>
        intro hg
        have := ih fun p k hp => hg p k (List.mem_cons_of_mem _ hp)
        rcases g with g | ⟨p, k⟩
        · exact this
        · unfold checkKeysBatched
          rw [hg p k List.mem_cons_self, this]
    unfold Circuit.checkBatched
    rw [this gs hkeys]
  have hstep : Circuit.StepBatched L B n rnd params ⟨gs, conds⟩ = Circuit.StepBatched L B n rnd params' ⟨gs, conds⟩ := by
    funext i s s' f
    unfold Circuit.StepBatched
    dsimp only
    cases hc : conds[i]? with
    | none => rfl
    | some c =>
      cases hg : gs[i]? with
      | none => cases c <;> rfl
      | some g =>
        cases c with
        | none =>
          dsimp only
          unfold Item.RunsBatched
          rcases g with g | ⟨p, k⟩
          · rfl
          · dsimp only
            rw [hkeys p k (List.mem_of_getElem? hg)]
        | some cond =>
          dsimp only
          rcases g with g | ⟨p, k⟩
          · rfl
          · have : Item.CondSlot L n rnd params cond (.inr (p, k)) = Item.CondSlot L n rnd params' cond (.inr (p, k)) := by
              funext b c c' f
              unfold Item.CondSlot
              dsimp only
              rw [hkeys p k (List.mem_of_getElem? hg)]
            rw [this]
  unfold Circuit.RunsBatched
  rw [hcheck, hstep]

/-! ## C44 -/

/-- **C44 (one conditional gate).** After a run of `ls`, a line with a condition on bit `i` of the register is applied iff the bit has
the expected value at that point; otherwise state, register and random numbers are those after `ls`. -/
theorem C44_applied_iff {ls : List Line} {ins : Instr} {i : Nat} {expected : Bool} {C : Circuit} {L n : Nat}
    (h : CircuitOf (ls ++ [⟨ins, some (bitCondition i expected)⟩]) C n) (hL : LanesOK L) (hn : n < 64) {θ : String → Option ℝ}
    (hk : KeysGiven (ls ++ [⟨ins, some (bitCondition i expected)⟩]) θ) {ψ ψ1 : U64 → ℂ} {reg reg1 : List Bool} {ms : List Nat}
    {uss : List (List ℝ)} (hh : History n θ ls ⟨ψ, reg, []⟩ uss ⟨ψ1, reg1, ms⟩) (hi : i < reg1.length) {rnd : Nat → ℝ} :
    (reg1[i] ≠ expected → Draws rnd uss.flatten → ∀ c' f, C.RunsOn L n rnd θ ψ reg c' f ↔ c' = ⟨ψ1, reg1, uss.flatten.length⟩ ∧ f = none) ∧
    (reg1[i] = expected → ∀ ψ2 reg2 ms2 us, Line.Effect n θ ⟨ins, none⟩ ⟨ψ1, reg1, ms⟩ us ⟨ψ2, reg2, ms2⟩ →
      Draws rnd (uss.flatten ++ us) → ∀ c' f, C.RunsOn L n rnd θ ψ reg c' f ↔
        c' = ⟨ψ2, reg2, uss.flatten.length + us.length⟩ ∧ f = none) := by
  have hget : ∀ b, Line.CondIs ⟨ins, some (bitCondition i expected)⟩ reg1 b ↔ b = (reg1[i] == expected) := by
    intro b
    unfold Line.CondIs bitCondition
    dsimp only
    rw [List.getElem?_eq_getElem hi]
    dsimp only
    constructor
    · intro e; injection e with e; exact e.symm
    · rintro rfl; rfl
  refine ⟨fun hne hd c' f => ?_, fun heq ψ2 reg2 ms2 us he hd c' f => ?_⟩
  · have hs : Line.Effect n θ ⟨ins, some (bitCondition i expected)⟩ ⟨ψ1, reg1, ms⟩ [] ⟨ψ1, reg1, ms⟩ :=
      .skip _ _ ((hget false).2 (by simpa using hne))
    have := history_append hh (.cons _ _ _ _ _ _ _ hs (.nil _))
    have hfl : (uss ++ [[]]).flatten = uss.flatten := by simp
    have := C38_in_order h hL hn hk this (rnd := rnd) (by rw [hfl]; exact hd) c' f
    rw [hfl] at this
    exact this
  · have hc : Line.CondIs ⟨ins, some (bitCondition i expected)⟩ reg1 true := (hget true).2 (by simpa using heq)
    have hs : Line.Effect n θ ⟨ins, some (bitCondition i expected)⟩ ⟨ψ1, reg1, ms⟩ us ⟨ψ2, reg2, ms2⟩ := by
      generalize hs1 : (⟨ψ1, reg1, ms⟩ : Situation) = s1 at he
      have hc' : Line.CondIs ⟨ins, some (bitCondition i expected)⟩ s1.reg true := by rw [← hs1]; exact hc
      generalize (⟨ψ2, reg2, ms2⟩ : Situation) = s2 at he
      cases he with
      | skip _ _ hf => cases hf
      | gate d c _ _ hm => exact .gate d _ _ hc' hm
      | choice ps ds c _ u k hk' _ hm hp => exact .choice ps ds _ _ u k hk' hc' hm hp
      | measure q cbit reset c _ u b _ hm h1 h2 h3 h4 => exact .measure q cbit reset _ _ u b hc' hm h1 h2 h3 h4
      | rot r key t c _ _ hm ht => exact .rot r key t _ _ hc' hm ht
      | pchoice ps ls key t c _ u k hk' _ hm ht hp => exact .pchoice ps ls key t _ _ u k hk' hc' hm ht hp
    have := history_append hh (.cons _ _ _ _ _ _ _ hs (.nil _))
    have hfl : (uss ++ [us]).flatten = uss.flatten ++ us := by simp
    have := C38_in_order h hL hn hk this (rnd := rnd) (by rw [hfl]; exact hd) c' f
    rw [hfl, List.length_append] at this
    exact this

/-- **C44 (batches).** If the lines turn every slot (with its register and its own parameters) into `ψ' b`, `reg' b`, taking their random
numbers line by line and, within a line, slot by slot, then the batched update has exactly these slots as outcome; memory outside the
batch is untouched.  Missing: runs in which a single state would throw because a gate touches a qubit that was measured without reset;
there the batched update may go on (`C44_counterexample`); and lines with a condition or a random choice that contain a sparse matrix
or a dense matrix on three or more qubits, which are lost (`C44_counterexample_lost`). -/
theorem C44_batched_partial {ls : List Line} {C : Circuit} {L B n : Nat} (h : CircuitOf ls C n) (hf : Fits L B n) (hB : 0 < B)
    (hv : ∀ l ∈ ls, l.InPlace)
    {params : String → Option (List ℝ)} (hk : ∀ l ∈ ls, ∀ k, l.instr.key? = some k → ∃ v, params k = some v ∧ v.length = B)
    {Ψ : U64 → ℂ} {regs : List (List Bool)} {sz : Nat} (hl : regs.length = B) (hr : ∀ r ∈ regs, r.length = sz)
    {ψ' : Nat → U64 → ℂ} {reg' : Nat → List Bool} {ms : Nat → List Nat} {uss : List (Nat → List ℝ)} (hlu : uss.length = ls.length)
    (hh : ∀ b (hb : b < regs.length), History n (fun k => (params k).bind (·[b]?)) ls ⟨slotOf n b Ψ, regs[b], []⟩ (uss.map (· b))
      ⟨ψ' b, reg' b, ms b⟩)
    {rnd : Nat → ℝ} (hd : Draws rnd (uss.flatMap fun us => (List.range B).flatMap us)) :
    ∃ c, (∀ c' f, C.RunsBatched L B n rnd params Ψ ⟨sz, regs⟩ c' f ↔ c' = c ∧ f = none) ∧
      (∀ b < B, slotOf n b c.psi = ψ' b ∧ c.reg.regs[b]? = some (reg' b)) ∧ c.reg.regs.length = B ∧ c.reg.size = sz ∧
      (∀ j : U64, ¬ j.toNat < B * 2 ^ n → c.psi j = Ψ j) ∧ c.pos = (uss.flatMap fun us => (List.range B).flatMap us).length := by
  have hlen := built_lengths h.built
  obtain ⟨gs, hgs, rfl⟩ := buildCircuit_ok h.built
  have hcheck : Circuit.checkBatched ⟨gs, ls.map (·.cond)⟩ B n ⟨sz, regs⟩ params = .ok () := by
    unfold Circuit.checkBatched
    rw [(checkQubits_iff hgs h.args n).1.2 h.qubits, ok_bind, if_neg (by simp [hl])]
    change checkKeysBatched B params gs = _
    rw [checkKeysBatched_iff.1]
    intro p k hp
    obtain ⟨l, hl, hlk⟩ := (built_keys hgs k).1 ⟨p, hp⟩
    exact hk l hl k hlk
  let S : Nat → Situation := fun b => ⟨slotOf n b Ψ, if hb : b < regs.length then regs[b] else [], []⟩
  have hS : Holds B n sz Ψ S Ψ regs := by
    refine ⟨fun b _ => rfl, ?_, fun b hb => ?_, fun j _ => rfl⟩
    · apply List.ext_getElem
      · simp [hl]
      · intro i h1 h2
        simp [S, h1]
    · have : b < regs.length := by omega
      simp only [S, dif_pos this]
      exact hr _ (List.getElem_mem this)
  obtain ⟨m', Ψ', regs', hH, hrun⟩ := history_runB (L := L) (B := B) (sz := sz) (params := params) (rnd := rnd) (pos := 0) hgs h.args
    hf.lanes hf.qubits hf.size hB h.qubits hv (fun l hl k v hlk hv => by
      obtain ⟨v', hv', hvl⟩ := hk l hl k hlk
      rw [hv] at hv'; cases hv'; exact hvl) hlu (S := S) (S' := fun b => ⟨ψ' b, reg' b, ms b⟩)
    (fun b hbB => by
      have hb : b < regs.length := by omega
      have := hh b hb
      simp only [S, dif_pos hb]
      exact this) (fun i hi => by rw [Nat.zero_add]; exact hd i hi) hS (m := 0)
    (fun b _ i hi => by rw [zero_bit] at hi; simp at hi)
  rw [Nat.zero_add] at hrun
  have hfull : Circuit.RunsBatched L B n rnd params ⟨gs, ls.map (·.cond)⟩ Ψ ⟨sz, regs⟩
      ⟨Ψ', ⟨sz, regs'⟩, (uss.flatMap fun us => (List.range B).flatMap us).length⟩ none := by
    unfold Circuit.RunsBatched
    rw [hcheck]
    exact ⟨m', (circuit_loopB hlen).2 hrun⟩
  refine ⟨_, fun c' f => ⟨fun h' => Proofs.Circuit.runsBatched_unique h' hfull, ?_⟩, fun b hb => ⟨hH.psi b hb, hH.reg_get hb⟩, ?_, rfl,
    hH.rest, rfl⟩
  · rintro ⟨rfl, rfl⟩
    exact hfull
  · dsimp only
    rw [hH.regs]; simp

theorem seqRun_append {ι C : Type} {S : ι → C → C → Option Fault → Prop} {is js : List ι} {c c1 c2 : C} {f : Option Fault}
    (h1 : SeqRun S is c c1 none) (h2 : SeqRun S js c1 c2 f) : SeqRun S (is ++ js) c c2 f := by
  generalize hg : (none : Option Fault) = g at h1
  induction h1 with
  | nil c => exact h2
  | cons i is c c1' c2' g h _ ih => exact .cons _ _ _ _ _ _ h (ih h2 hg)
  | stop i is c c1' e h => cases hg

/-- **C44 (measured qubits).** A line that is due and touches a qubit which an earlier line measured without reset is rejected: the update
throws, leaving the effects of the lines before it. -/
theorem C44_rejected {ls rest : List Line} {l : Line} {C : Circuit} {L n : Nat} (h : CircuitOf (ls ++ l :: rest) C n) (hL : LanesOK L)
    (hn : n < 64) {θ : String → Option ℝ} (hk : KeysGiven (ls ++ l :: rest) θ) {ψ ψ1 : U64 → ℂ} {reg reg1 : List Bool} {ms : List Nat}
    {uss : List (List ℝ)} (hh : History n θ ls ⟨ψ, reg, []⟩ uss ⟨ψ1, reg1, ms⟩) {rnd : Nat → ℝ} (hr : Draws rnd uss.flatten)
    (hc : l.CondIs reg1 true) {q : Nat} (hq : q ∈ ms) (hql : q ∈ l.instr.qubits) :
    ∃ e, ∀ c' f, C.RunsOn L n rnd θ ψ reg c' f ↔ c' = ⟨ψ1, reg1, uss.flatten.length⟩ ∧ f = some (.throw e) := by
  have hchk := check_ok h hk
  have hlen := built_lengths h.built
  obtain ⟨gs, hgs, rfl⟩ := buildCircuit_ok h.built
  rw [List.mapM_append] at hgs
  obtain ⟨ga, hga, hgs⟩ := bind_ok hgs
  obtain ⟨gb, hgb, hgs⟩ := bind_ok hgs
  rw [List.mapM_cons] at hgb
  obtain ⟨g, hg, hgb⟩ := bind_ok hgb
  obtain ⟨gr, hgr, hgb⟩ := bind_ok hgb
  cases hgb
  cases hgs
  have hla : (ls.map (·.cond)).length = ga.length := by rw [List.length_map, (mapM_get _ hga).1]
  obtain ⟨m, ⟨-, hm⟩, hs⟩ := history_run hga (fun l hl => h.args l (List.mem_append_left _ hl)) hL hn
    (fun l hl => h.qubits l (List.mem_append_left _ hl)) hh (rnd := rnd) (pos := 0)
    (fun i hi => by rw [Nat.zero_add]; exact hr i hi) (m := 0) (fun i hi => by rw [zero_bit] at hi; simp at hi)
  rw [Nat.zero_add] at hs
  have hbit : m.getLsbD q = true := hm (by simp) q hq
  have hrun : Circuit.RunsOn L n rnd θ ⟨ga ++ g :: gr, (ls ++ l :: rest).map (·.cond)⟩ ψ reg ⟨ψ1, reg1, uss.flatten.length⟩
      (some (.throw "gate touches a qubit that was measured and has not been reset.")) := by
    unfold Circuit.RunsOn
    rw [hchk]
    refine ⟨m, (circuit_loop hlen).2 ?_⟩
    rw [List.map_append, List.zip_append hla]
    refine seqRun_append hs ?_
    rw [List.map_cons, List.zip_cons_cons]
    refine .stop _ _ _ _ _ ?_
    unfold lineStep
    dsimp only
    rw [evalCond_of hc]
    dsimp only
    unfold Item.RunsOn
    rw [if_pos]
    · exact ⟨rfl, rfl⟩
    · intro h0
      exact (and_zero_iff _ _).1 h0 q hbit ((item_mask hg (h.args l (by simp)) q).2 hql)
  refine ⟨_, fun c' f => ⟨fun h' => Proofs.Circuit.runsOn_unique h' hrun, ?_⟩⟩
  rintro ⟨rfl, rfl⟩
  exact hrun

/-! ### examples and the counterexample -/

theorem buildCircuit_of {ls : List Line} (h : ∀ l ∈ ls, ∃ g, l.instr.build = .ok g) : ∃ C, buildCircuit ls = .ok C := by
  have key : ∀ (ls : List Line) (C : Circuit), (∀ l ∈ ls, ∃ g, l.instr.build = .ok g) → ∃ D, ls.foldlM addLine C = .ok D := by
    intro ls
    induction ls with
    | nil => intro C _; exact ⟨C, rfl⟩
    | cons l ls ih =>
      intro C h
      obtain ⟨g, hg⟩ := h l List.mem_cons_self
      have hstep : ∃ C', addLine C l = .ok C' := by
        unfold addLine
        rw [hg, ok_bind]
        cases hc : l.cond with
        | none => rcases g with g | ⟨p, k⟩ <;> exact ⟨_, rfl⟩
        | some f => rcases g with g | ⟨p, k⟩ <;> exact ⟨_, rfl⟩
      obtain ⟨C', hC⟩ := hstep
      rw [List.foldlM_cons, hC, ok_bind]
      exact ih C' fun l hl => h l (List.mem_cons_of_mem _ hl)
  exact key ls .empty h

theorem gate_builds (k : Gate1) {q : Nat} (h : q < 64) : ∃ g, (Instr.gate (.one k q [] [])).build = .ok g := by
  obtain ⟨g, hg⟩ := build_one k (q := q) (cs := []) (vs := []) h (by simp) (by simp) (by simp) rfl (by simp [effectiveValues])
  exact ⟨.inl (.det g), by show (do let g ← (GateDesc.one k q [] []).build; pure (Sum.inl (Gate.det g)) : Res Item) = _; rw [hg]; rfl⟩

theorem measure_builds {q : Nat} (h : q < 64) (cbit : Nat) (reset : Bool) : ∃ g, (Instr.measure q cbit reset).build = .ok g := by
  obtain ⟨g, hg⟩ := mkMeas_build (target := q) (cbit := cbit) (reset := reset) h
  exact ⟨.inl (.meas g), by show (do let g ← mkMeas q cbit reset; pure (Sum.inl (Gate.meas g)) : Res Item) = _; rw [hg]; rfl⟩

theorem rot_builds (a : RotAxis) {q : Nat} (h : q < 64) (k : ℝ) (key : String) :
    ∃ g, (Instr.rot (.axis a q k [] []) key).build = .ok g := by
  obtain ⟨o, ho⟩ := mkOperands_complete (ts := [q]) (cs := []) (vs := []) (by simp) (by simpa using h) (by simp) (by simp) (by simp) rfl
    (by simp [effectiveValues])
  exact ⟨_, by
    show (do let p ← (RotDesc.axis a q k [] []).build; pure (Sum.inr (PGate.rot p, key)) : Res Item) = _
    simp only [RotDesc.build, mkAxis, ho, ok_bind]
    rfl⟩

/-- teleportation-like sample: superposition, measurement with reset, a gate conditioned on the result, a parametric rotation -/
noncomputable def sampleLines : List Line := [⟨.gate (.one .H 0 [] []), none⟩, ⟨.measure 0 0 true, none⟩,
  ⟨.gate (.one .X 1 [] []), some (bitCondition 0 true)⟩, ⟨.rot (.axis .X 0 2 [] []) "a", none⟩]

theorem sampleLines_of : ∃ C, CircuitOf sampleLines C 2 := by
  obtain ⟨C, hC⟩ := buildCircuit_of (ls := sampleLines) (by
    intro l hl
    simp only [sampleLines, List.mem_cons, List.not_mem_nil, or_false] at hl
    rcases hl with rfl | rfl | rfl | rfl
    · exact gate_builds _ (by norm_num)
    · exact measure_builds (by norm_num) _ _
    · exact gate_builds _ (by norm_num)
    · exact rot_builds _ (by norm_num) _ _)
  refine ⟨C, hC, ?_, ?_⟩
  · intro l hl
    simp only [sampleLines, List.mem_cons, List.not_mem_nil, or_false] at hl
    rcases hl with rfl | rfl | rfl | rfl <;> trivial
  · intro l hl
    simp only [sampleLines, List.mem_cons, List.not_mem_nil, or_false] at hl
    rcases hl with rfl | rfl | rfl | rfl <;> simp [Instr.qubits, qubitsOf, targetsOf, controlsOf, ctrlList, RotDesc.at]

/-- the hypotheses of `C38_total` (and by its conclusion those of `C38_in_order`, `C38_append`) hold for the sample -/
example {ψ : U64 → ℂ} (hψ : normSq (2 ^ 2) ψ = 1) : ∃ C, CircuitOf sampleLines C 2 ∧
    KeysGiven sampleLines (fun k => if k = "a" then some (0.3 : ℝ) else none) ∧ (∀ l ∈ sampleLines, Unitaries l.instr) ∧
    (∀ l ∈ sampleLines, RegisterOK [false].length l) ∧ Clear [] sampleLines ∧
    ∃ uss s, History 2 (fun k => if k = "a" then some (0.3 : ℝ) else none) sampleLines ⟨ψ, [false], []⟩ uss s := by
  obtain ⟨C, hC⟩ := sampleLines_of
  have h1 : KeysGiven sampleLines (fun k => if k = "a" then some (0.3 : ℝ) else none) := by
    intro l hl k hk
    simp only [sampleLines, List.mem_cons, List.not_mem_nil, or_false] at hl
    rcases hl with rfl | rfl | rfl | rfl <;> simp [Instr.key?] at hk
    exact ⟨0.3, by simp [← hk]⟩
  have h2 : ∀ l ∈ sampleLines, Unitaries l.instr := by
    intro l hl
    simp only [sampleLines, List.mem_cons, List.not_mem_nil, or_false] at hl
    rcases hl with rfl | rfl | rfl | rfl
    · exact ⟨by simp, by simp⟩
    · trivial
    · exact ⟨by simp, by simp⟩
    · exact ⟨by simp, by simp⟩
  have h3 : ∀ l ∈ sampleLines, RegisterOK [false].length l := by
    intro l hl
    simp only [sampleLines, List.mem_cons, List.not_mem_nil, or_false] at hl
    rcases hl with rfl | rfl | rfl | rfl
    · exact ⟨fun q c r h => by simp at h, fun f h => by simp at h⟩
    · exact ⟨fun q c r h => by simp only [Instr.measure.injEq] at h; simp [← h.2.1], fun f h => by simp at h⟩
    · refine ⟨fun q c r h => by simp at h, fun f h r hr => ?_⟩
      simp only [Option.some.injEq] at h
      subst h
      have : 0 < r.length := by rw [hr]; simp
      exact ⟨_, by unfold bitCondition; rw [List.getElem?_eq_getElem this]⟩
    · exact ⟨fun q c r h => by simp at h, fun f h => by simp at h⟩
  have h4 : Clear [] sampleLines := by simp [sampleLines, Clear]
  obtain ⟨c, -, -, -, uss, ms, -, -, hh⟩ := C38_total hC (Or.inl rfl) (by norm_num) h1 h2 h3 h4 hψ (rnd := fun _ => 0.5) (fun _ => by norm_num)
  exact ⟨C, hC, h1, h2, h3, h4, uss, _, hh⟩

/-- a sample for `C38_operators` -/
example : ∃ C, CircuitOf [⟨.gate (.one .H 0 [] []), none⟩, ⟨.gate (.one .X 1 [] []), none⟩] C 2 ∧
    ∀ l ∈ [(⟨.gate (.one .H 0 [] []), none⟩ : Line), ⟨.gate (.one .X 1 [] []), none⟩], Line.Plain l := by
  obtain ⟨C, hC⟩ := buildCircuit_of (ls := [⟨.gate (.one .H 0 [] []), none⟩, ⟨.gate (.one .X 1 [] []), none⟩]) (by
    intro l hl
    simp only [List.mem_cons, List.not_mem_nil, or_false] at hl
    rcases hl with rfl | rfl <;> exact gate_builds _ (by norm_num))
  refine ⟨C, ⟨hC, ?_, ?_⟩, ?_⟩ <;>
  · intro l hl
    simp only [List.mem_cons, List.not_mem_nil, or_false] at hl
    rcases hl with rfl | rfl <;> simp [Instr.qubits, qubitsOf, targetsOf, controlsOf, ctrlList, Instr.OK, DescOK, Line.Plain]

/-- C43: the sample needs the parameter "a" -/
example : ∃ C, buildCircuit sampleLines = .ok C ∧ (∀ l ∈ sampleLines, l.instr.OK) ∧ ∃ l ∈ sampleLines, l.instr.key? = some "a" := by
  obtain ⟨C, hC⟩ := sampleLines_of
  exact ⟨C, hC.built, hC.args, ⟨.rot (.axis .X 0 2 [] []) "a", none⟩, by simp [sampleLines], rfl⟩

/-- a measurement without reset, then a conditional gate on the measured qubit -/
noncomputable def clashLines : List Line := [⟨.measure 0 0 false, none⟩, ⟨.gate (.one .X 0 [] []), some (bitCondition 0 false)⟩]

theorem clashLines_of : ∃ C, CircuitOf clashLines C 1 := by
  obtain ⟨C, hC⟩ := buildCircuit_of (ls := clashLines) (by
    intro l hl
    simp only [clashLines, List.mem_cons, List.not_mem_nil, or_false] at hl
    rcases hl with rfl | rfl
    · exact measure_builds (by norm_num) _ _
    · exact gate_builds _ (by norm_num))
  refine ⟨C, hC, ?_, ?_⟩
  · intro l hl
    simp only [clashLines, List.mem_cons, List.not_mem_nil, or_false] at hl
    rcases hl with rfl | rfl <;> trivial
  · intro l hl
    simp only [clashLines, List.mem_cons, List.not_mem_nil, or_false] at hl
    rcases hl with rfl | rfl <;> simp [Instr.qubits, qubitsOf, targetsOf, controlsOf, ctrlList]

theorem clash_first (θ : String → Option ℝ) : ∃ ψ1, Line.Effect 1 θ ⟨.measure 0 0 false, none⟩ ⟨samplePsi, [true], []⟩ [0] ⟨ψ1, [false], [0]⟩ := by
  obtain ⟨h1, h0⟩ := outcome_spec (q := 0) samplePsi_norm (u := 0) le_rfl one_pos
  have hb : bitProb 1 samplePsi 0 false = 1 / 2 := by
    unfold bitProb
    rw [sum_indices (by norm_num)]
    simp [Finset.sum_range_succ, samplePsi, Complex.normSq_ofReal]
  refine ⟨_, .measure 0 0 false none ⟨samplePsi, [true], []⟩ 0 false rfl (by simp) (by simp) h1 ?_ ?_⟩
  · simp [hb]
  · rw [hb]; norm_num

/-- **C44 (counterexample).** Batched and single updates disagree: the conditional X touches a qubit that was measured without reset; for a
single state this throws, for a batch of one state (same state, register and random numbers) the update finishes. -/
theorem C44_counterexample : ∃ C, CircuitOf clashLines C 1 ∧ ∃ (Ψ : U64 → ℂ) (reg : List Bool) (rnd : Nat → ℝ), ∀ L, LanesOK L →
    (∃ c e, C.RunsOn L 1 rnd (fun _ => none) (slotOf 1 0 Ψ) reg c (some (.throw e))) ∧
    (∃ c, C.RunsBatched L 1 1 rnd (fun _ => none) Ψ ⟨1, [reg]⟩ c none) := by
  obtain ⟨C, hC⟩ := clashLines_of
  have hs0 : slotOf 1 0 samplePsi = samplePsi := by
    funext j
    unfold slotOf
    by_cases hj : j.toNat < 2 ^ 1
    · rw [if_pos hj]
      simp
    · rw [if_neg hj]
      unfold samplePsi
      rw [if_neg]
      rintro (rfl | rfl) <;> simp at hj
  refine ⟨C, hC, samplePsi, [true], fun _ => 0, fun L hL => ⟨?_, ?_⟩⟩
  · obtain ⟨ψ1, he⟩ := clash_first fun _ => none
    obtain ⟨e, h⟩ := C44_rejected (ls := [⟨.measure 0 0 false, none⟩]) (rest := [])
      (l := ⟨.gate (.one .X 0 [] []), some (bitCondition 0 false)⟩) (L := L) hC hL (by norm_num) (θ := fun _ => none)
      (by
        intro l hl k hk
        simp only [List.cons_append, List.nil_append, List.mem_cons, List.not_mem_nil, or_false] at hl
        rcases hl with rfl | rfl <;> simp [Instr.key?] at hk)
      (.cons _ _ _ _ _ _ _ he (.nil _)) (rnd := fun _ => 0) (by intro i hi; simp) rfl (q := 0) (by simp)
      (by simp [Instr.qubits, qubitsOf, targetsOf])
    rw [hs0]
    exact ⟨_, e, (h _ _).2 ⟨rfl, rfl⟩⟩
  · obtain ⟨ψ1, he⟩ := clash_first (slotParams (fun _ => none) 0)
    have hchk : C.checkBatched 1 1 ⟨1, [[true]]⟩ (fun _ => none) = .ok () := by
      obtain ⟨gs, hgs, rfl⟩ := buildCircuit_ok hC.built
      unfold Circuit.checkBatched
      rw [(checkQubits_iff hgs hC.args 1).1.2 hC.qubits, ok_bind, if_neg (by simp)]
      change checkKeysBatched 1 _ gs = _
      rw [checkKeysBatched_iff.1]
      intro p k hp
      obtain ⟨l, hl, hlk⟩ := (built_keys hgs k).1 ⟨p, hp⟩
      simp only [clashLines, List.mem_cons, List.not_mem_nil, or_false] at hl
      rcases hl with rfl | rfl <;> simp [Instr.key?] at hlk
    have hlen := built_lengths hC.built
    obtain ⟨gs, hgs, rfl⟩ := buildCircuit_ok hC.built
    have hargs := hC.args
    have hqubits := hC.qubits
    unfold clashLines at hgs hargs hqubits
    rw [List.mapM_cons] at hgs
    obtain ⟨g1, hg1, hgs⟩ := bind_ok hgs
    obtain ⟨gr, hgr, hgs⟩ := bind_ok hgs
    cases hgs
    rw [List.mapM_cons] at hgr
    obtain ⟨g2, hg2, hgr⟩ := bind_ok hgr
    obtain ⟨gr', hgr', hgr⟩ := bind_ok hgr
    cases hgr
    cases hgr'
    obtain ⟨m, -, h1⟩ := line_stepB (L := L) (B := 1) (sz := 1) (Ψ0 := samplePsi) (Ψ := samplePsi) (regs := [[true]]) (pos := 0)
      (rnd := fun _ => 0) (params := fun _ => none) (S := fun _ => ⟨samplePsi, [true], []⟩) (S' := fun _ => ⟨ψ1, [false], [0]⟩)
      (us := fun _ => [0]) hg1 (hargs _ List.mem_cons_self) hL (by norm_num) (by norm_num) (by norm_num)
      (hqubits _ List.mem_cons_self) (Or.inl trivial) (fun k v _ h => by simp at h) (fun b hb => by
        obtain rfl : b = 0 := by omega
        exact he) (fun i hi => by simp) ⟨fun b hb => by
          obtain rfl : b = 0 := by omega
          exact hs0, rfl, fun _ _ => rfl, fun _ _ => rfl⟩ (m := 0) (fun b _ i hi => by rw [zero_bit] at hi; simp at hi)
    have h2 := cond_line (L := L) (B := 1) (n := 1) (sz := 1) (Ψ0 := samplePsi) (Ψ := ofSlots 1 1 (fun _ => ψ1) samplePsi) (regs := [[false]])
      (pos := 0 + 1) (rnd := fun _ => 0) (params := fun _ => none)
      (S := fun _ => ⟨slotOf 1 0 (ofSlots 1 1 (fun _ => ψ1) samplePsi), [false], []⟩)
      (S' := fun _ => ⟨onState (2 ^ 1) (operatorOf (.one .X 0 [] [])) (slotOf 1 0 (ofSlots 1 1 (fun _ => ψ1) samplePsi)), [false], []⟩)
      (us := fun _ => []) hg2 (hargs _ (by simp)) hL (by norm_num) (by norm_num) (hqubits _ (by simp)) trivial rfl (fun b hb =>
        .gate _ _ ⟨slotOf 1 0 (ofSlots 1 1 (fun _ => ψ1) samplePsi), [false], []⟩ rfl (by simp)) (fun i hi => by simp at hi)
      ⟨fun b hb => by obtain rfl : b = 0 := by omega
                      rfl, rfl, fun _ _ => rfl, fun j hj => by
          unfold ofSlots
          rw [if_neg (by simpa using hj)]⟩
    have h3 : lineStepB L 1 1 (fun _ => 0) (fun _ => none) (some (bitCondition 0 false), g2)
      (⟨ofSlots 1 1 (fun _ => ψ1) samplePsi, ⟨1, [[false]]⟩, 0 + 1⟩, m) (_, m) none := ⟨h2, rfl⟩
    have hrun := SeqRun.cons _ _ _ _ _ _ h1 (SeqRun.cons _ _ _ _ _ _ h3 (SeqRun.nil _))
    exact ⟨_, by
      unfold Circuit.RunsBatched
      rw [hchk]
      exact ⟨m, (circuit_loopB hlen).2 hrun⟩⟩

/-- a batch of two states with different registers: the gate is applied to one of them only (sample for `C44_batched_partial`) -/
example (Ψ : U64 → ℂ) : ∀ b (hb : b < [[true], [false]].length), ∃ ψ', History 1 (fun _ => none)
    [⟨.gate (.one .X 0 [] []), some (bitCondition 0 true)⟩] ⟨slotOf 1 b Ψ, [[true], [false]][b], []⟩ [[]]
    ⟨ψ', [[true], [false]][b], []⟩ := by
  intro b hb
  have : b = 0 ∨ b = 1 := by simp at hb; omega
  rcases this with rfl | rfl
  · exact ⟨_, .cons _ _ _ _ _ _ _ (.gate _ _ ⟨slotOf 1 0 Ψ, [true], []⟩ rfl (by simp)) (.nil _)⟩
  · exact ⟨_, .cons _ _ _ _ _ _ _ (.skip _ ⟨slotOf 1 1 Ψ, [false], []⟩ rfl) (.nil _)⟩

/-- the lines of a circuit with random choice, condition and matrices of all kinds (sample for `C44_batched_partial`) -/
example (M : DMat ℂ) (S : SMat ℂ) : ∀ l ∈ ([⟨.gate (.sparse [0] S [] []), none⟩, ⟨.gate (.dense [0, 1] M [] [] true), some (bitCondition 0 true)⟩,
    ⟨.choice [1 / 2, 1 / 2] [.one .X 0 [] [], .dense [0, 1] M [] [] true], none⟩] : List Line), l.InPlace := by
  intro l hl
  simp only [List.mem_cons, List.not_mem_nil, or_false] at hl
  rcases hl with rfl | rfl | rfl
  · exact Or.inr ⟨rfl, trivial⟩
  · exact Or.inl (show [0, 1].length ≤ 2 by simp)
  · refine Or.inl fun d hd => ?_
    simp only [List.mem_cons, List.not_mem_nil, or_false] at hd
    rcases hd with rfl | rfl
    · trivial
    · exact (show [0, 1].length ≤ 2 by simp)

/-- the X gate given as a sparse matrix, applied if bit 0 is 1 -/
def lostLines : List Line := [⟨.gate (.sparse [0] sparseX [] []), some (bitCondition 0 true)⟩]

/-- **C44 (counterexample).** Batched and single updates disagree: the conditional X gate, given as a sparse matrix, flips the qubit of a
single state whose register has bit 0 set; in a batch of one state with the same register nothing happens. -/
theorem C44_counterexample_lost : ∃ C, CircuitOf lostLines C 1 ∧ ∀ L, LanesOK L → ∀ (Ψ : U64 → ℂ) (rnd : Nat → ℝ),
    C.RunsOn L 1 rnd (fun _ => none) Ψ [true] ⟨fun j => if j.toNat < 2 then Ψ (j ^^^ 1) else Ψ j, [true], 0⟩ none ∧
    C.RunsBatched L 1 1 rnd (fun _ => none) Ψ ⟨1, [[true]]⟩ ⟨Ψ, ⟨1, [[true]]⟩, 0⟩ none := by
  obtain ⟨o, ho⟩ := sparseX_builds
  have hu : (GateDesc.sparse [0] sparseX [] []).build = .ok (.sparse o) := by
    show (mkSparse [0] sparseX [] [] >>= fun g => pure (UGate.sparse g)) = _
    rw [ho]; rfl
  have hi : (Instr.gate (.sparse [0] sparseX [] [])).build = .ok (.inl (.det (.sparse o))) := by
    show (do let g ← (GateDesc.sparse [0] sparseX [] []).build; pure (Sum.inl (Gate.det g)) : Res Item) = _
    rw [hu]; rfl
  obtain ⟨C, hC⟩ := buildCircuit_of (ls := lostLines) (by
    intro l hl
    simp only [lostLines, List.mem_cons, List.not_mem_nil, or_false] at hl
    subst hl
    exact ⟨_, hi⟩)
  have hCO : CircuitOf lostLines C 1 := by
    refine ⟨hC, ?_, ?_⟩
    · intro l hl
      simp only [lostLines, List.mem_cons, List.not_mem_nil, or_false] at hl
      subst hl
      exact sparseX_ok
    · intro l hl
      simp only [lostLines, List.mem_cons, List.not_mem_nil, or_false] at hl
      subst hl
      simp [Instr.qubits, qubitsOf, targetsOf, controlsOf, ctrlList]
  have hX : ∀ Ψ : U64 → ℂ, onState (2 ^ 1) (operatorOf (.sparse [0] sparseX [] [])) Ψ = fun j => if j.toNat < 2 then Ψ (j ^^^ 1) else Ψ j := by
    intro Ψ
    funext j
    unfold onState
    rw [sparseX_acts]
    rfl
  refine ⟨C, hCO, fun L hL Ψ rnd => ⟨?_, ?_⟩⟩
  · have hh : History 1 (fun _ => none) lostLines ⟨Ψ, [true], []⟩ [[]] ⟨_, [true], []⟩ :=
      .cons _ _ _ _ _ _ _ (.gate (.sparse [0] sparseX [] []) _ ⟨Ψ, [true], []⟩ rfl (by simp)) (.nil _)
    rw [hX] at hh
    exact (C38_in_order hCO hL (by norm_num) (by
      intro l hl k hk
      simp only [lostLines, List.mem_cons, List.not_mem_nil, or_false] at hl
      subst hl
      simp [Instr.key?] at hk) hh (rnd := rnd) (by intro i hi; simp at hi) _ _).2 ⟨rfl, rfl⟩
  · have hchk : C.checkBatched 1 1 ⟨1, [[true]]⟩ (fun _ => none) = .ok () := by
      obtain ⟨gs, hgs, rfl⟩ := buildCircuit_ok hCO.built
      unfold Circuit.checkBatched
      rw [(checkQubits_iff hgs hCO.args 1).1.2 hCO.qubits, ok_bind, if_neg (by simp)]
      change checkKeysBatched 1 _ gs = _
      rw [checkKeysBatched_iff.1]
      intro p k hp
      obtain ⟨l, hl, hlk⟩ := (built_keys hgs k).1 ⟨p, hp⟩
      simp only [lostLines, List.mem_cons, List.not_mem_nil, or_false] at hl
      subst hl
      simp [Instr.key?] at hlk
    have hlen := built_lengths hCO.built
    obtain ⟨gs, hgs, rfl⟩ := buildCircuit_ok hCO.built
    unfold lostLines at hgs
    rw [List.mapM_cons, hi] at hgs
    cases hgs
    have hf : Fits L 1 1 := ⟨hL, by norm_num, by norm_num⟩
    obtain ⟨dev, hd, hp⟩ := performs_of_build (d := .sparse [0] sparseX [] []) sparseX_ok hu hf (by simp [qubitsOf, targetsOf, controlsOf, ctrlList])
    have hs : SeqRun (fun b => Item.CondSlot L 1 rnd (fun _ => none) (bitCondition 0 true) (.inl (.det (.sparse o))) b) (List.range 1)
        ⟨Ψ, ⟨1, [[true]]⟩, 0⟩ ⟨Ψ, ⟨1, [[true]]⟩, 0⟩ none := by
      refine .cons _ _ _ _ _ _ ?_ (.nil _)
      unfold Item.CondSlot
      change SlotStep 1 ((Gate.det (.sparse o)).RunsOnView L 1 rnd) 0 _ _ none
      refine ⟨⟨slotOf 1 0 Ψ, [true], 0⟩, ⟨⟨onState (1 * 2 ^ 1) (operatorOf (.sparse [0] sparseX [] [])) (slotOf 1 0 Ψ), [true], 0⟩, ?_, rfl⟩, ?_⟩
      · unfold UGate.RunsOn
        rw [hd]
        exact ⟨rfl, rfl, rfl, hp _⟩
      · exact (congrArg (fun φ => (⟨φ, ⟨1, [[true]]⟩, 0⟩ : BContext)) (putSlot_slotOf 1 0 Ψ)).symm
    unfold Circuit.RunsBatched
    rw [hchk]
    exact ⟨_, (circuit_loopB hlen).2 (.cons _ _ _ _ _ _ (show lineStepB L 1 1 rnd (fun _ => none) (some (bitCondition 0 true), .inl (.det (.sparse o)))
      (⟨Ψ, ⟨1, [[true]]⟩, 0⟩, 0) (⟨Ψ, ⟨1, [[true]]⟩, 0⟩, 0) none from ⟨hs, rfl⟩) (.nil _))⟩

end Verif.Props
