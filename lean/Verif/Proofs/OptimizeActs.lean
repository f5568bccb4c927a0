import Verif.Proofs.Commute
import Verif.Proofs.CircuitRun

/-! # Reordering the actions of a circuit -/

namespace Verif.Proofs
open Verif Verif.Spec Verif.Model
attribute [-simp] BitVec.getLsbD_eq_getElem

/-- an action: a line, a gate object, or a global phase -/
inductive Act where
  | line (l : Line)
  | gate (g : UGate)
  | phase (φ : ℝ)

inductive ActEff (n : Nat) (θ : String → Option ℝ) : Act → Situation → List ℝ → Situation → Prop
  | line (l : Line) (s s' : Situation) (us : List ℝ) : l.Effect n θ s us s' → ActEff n θ (.line l) s us s'
  | gate (g : UGate) (s : Situation) : (∀ q ∈ s.measured, ¬ UGate.uses g q) →
      ActEff n θ (.gate g) s [] { s with psi := onState (2 ^ n) (opOf g) s.psi }
  | phase (φ : ℝ) (s : Situation) : ActEff n θ (.phase φ) s [] { s with psi := onState (2 ^ n) (phaseOp φ) s.psi }

/-- a run of a list of actions -/
inductive Acts (n : Nat) (θ : String → Option ℝ) : List Act → Situation → List ℝ → Situation → Prop
  | nil (s : Situation) : Acts n θ [] s [] s
  | cons (a : Act) (as : List Act) (s s1 s2 : Situation) (us vs : List ℝ) :
      ActEff n θ a s us s1 → Acts n θ as s1 vs s2 → Acts n θ (a :: as) s (us ++ vs) s2

variable {n : Nat} {θ : String → Option ℝ}

theorem acts_append {as bs : List Act} {s s' : Situation} {us : List ℝ} :
    Acts n θ (as ++ bs) s us s' ↔ ∃ s1 us1 us2, us = us1 ++ us2 ∧ Acts n θ as s us1 s1 ∧ Acts n θ bs s1 us2 s' := by
  induction as generalizing s us with
  | nil =>
    constructor
    · intro h; exact ⟨s, [], us, rfl, .nil _, h⟩
    · rintro ⟨s1, us1, us2, rfl, h1, h2⟩
      cases h1
      exact h2
  | cons a as ih =>
    constructor
    · intro h
      cases h with
      | cons _ _ _ s1 _ vs ws h1 h2 =>
        obtain ⟨s2, us1, us2, rfl, h3, h4⟩ := ih.1 h2
        exact ⟨s2, vs ++ us1, us2, by rw [List.append_assoc], .cons _ _ _ _ _ _ _ h1 h3, h4⟩
    · rintro ⟨s1, us1, us2, rfl, h1, h2⟩
      cases h1 with
      | cons _ _ _ s3 _ vs ws h3 h4 =>
        rw [List.cons_append, List.append_assoc]
        exact .cons _ _ _ _ _ _ _ h3 (ih.2 ⟨s1, ws, us2, rfl, h4, h2⟩)

theorem acts_one {a : Act} {s s' : Situation} {us : List ℝ} : Acts n θ [a] s us s' ↔ ActEff n θ a s us s' := by
  constructor
  · intro h
    cases h with
    | cons _ _ _ s1 _ vs ws h1 h2 =>
      cases h2
      rwa [List.append_nil]
  · intro h
    have := Acts.cons a [] s s' s' us [] h (.nil _)
    rwa [List.append_nil] at this

theorem acts_two {a b : Act} {s s' : Situation} {us : List ℝ} :
    Acts n θ [a, b] s us s' ↔ ∃ s1 us1 us2, us = us1 ++ us2 ∧ ActEff n θ a s us1 s1 ∧ ActEff n θ b s1 us2 s' := by
  rw [show [a, b] = [a] ++ [b] from rfl, acts_append]
  simp only [acts_one]

/-- every run of `as` is a run of `bs` -/
def Le (n : Nat) (θ : String → Option ℝ) (as bs : List Act) : Prop := ∀ s us s', Acts n θ as s us s' → Acts n θ bs s us s'

theorem Le.refl (as : List Act) : Le n θ as as := fun _ _ _ h => h

theorem Le.trans {as bs cs : List Act} (h1 : Le n θ as bs) (h2 : Le n θ bs cs) : Le n θ as cs := fun _ _ _ h => h2 _ _ _ (h1 _ _ _ h)

theorem Le.append {as bs cs ds : List Act} (h1 : Le n θ as bs) (h2 : Le n θ cs ds) : Le n θ (as ++ cs) (bs ++ ds) := by
  intro s us s' h
  obtain ⟨s1, us1, us2, rfl, h3, h4⟩ := acts_append.1 h
  exact acts_append.2 ⟨s1, us1, us2, rfl, h1 _ _ _ h3, h2 _ _ _ h4⟩

theorem Le.left {bs cs : List Act} (as : List Act) (h : Le n θ bs cs) : Le n θ (as ++ bs) (as ++ cs) := (Le.refl as).append h

theorem Le.right {as bs : List Act} (cs : List Act) (h : Le n θ as bs) : Le n θ (as ++ cs) (bs ++ cs) := h.append (Le.refl cs)

/-! ## the rules -/

/-- gates on different qubits -/
theorem le_gate_gate {g g' : UGate} (hu : ∀ q, UGate.uses g q → q < n) (hu' : ∀ q, UGate.uses g' q → q < n)
    (hd : ∀ q, UGate.uses g q → ¬ UGate.uses g' q) : Le n θ [.gate g, .gate g'] [.gate g', .gate g] := by
  intro s us s' h
  obtain ⟨s1, us1, us2, rfl, h1, h2⟩ := acts_two.1 h
  cases h1 with
  | gate _ _ f1 =>
    cases h2 with
    | gate _ _ f2 =>
      refine acts_two.2 ⟨_, [], [], rfl, .gate g' s f2, ?_⟩
      have := ActEff.gate (n := n) (θ := θ) g { s with psi := onState (2 ^ n) (opOf g') s.psi } f1
      rwa [show onState (2 ^ n) (opOf g') (onState (2 ^ n) (opOf g) s.psi) = onState (2 ^ n) (opOf g) (onState (2 ^ n) (opOf g') s.psi) from
        (onState_comm (localOp_opOf hu) (localOp_opOf hu') (opOf_comm hd) s.psi).symm]

theorem le_phase_gate {g : UGate} (φ : ℝ) (hu : ∀ q, UGate.uses g q → q < n) : Le n θ [.phase φ, .gate g] [.gate g, .phase φ] := by
  intro s us s' h
  obtain ⟨s1, us1, us2, rfl, h1, h2⟩ := acts_two.1 h
  cases h1 with
  | phase =>
    cases h2 with
    | gate _ _ f2 =>
      refine acts_two.2 ⟨_, [], [], rfl, .gate g s f2, ?_⟩
      have := ActEff.phase (n := n) (θ := θ) φ { s with psi := onState (2 ^ n) (opOf g) s.psi }
      rwa [show onState (2 ^ n) (opOf g) (onState (2 ^ n) (phaseOp φ) s.psi) = onState (2 ^ n) (phaseOp φ) (onState (2 ^ n) (opOf g) s.psi) from
        onState_comm (localOp_opOf hu) (localOp_phase n φ) (phase_comm g φ) s.psi]

theorem le_gate_phase {g : UGate} (φ : ℝ) (hu : ∀ q, UGate.uses g q → q < n) : Le n θ [.gate g, .phase φ] [.phase φ, .gate g] := by
  intro s us s' h
  obtain ⟨s1, us1, us2, rfl, h1, h2⟩ := acts_two.1 h
  cases h1 with
  | gate _ _ f2 =>
    cases h2 with
    | phase =>
      refine acts_two.2 ⟨_, [], [], rfl, .phase φ s, ?_⟩
      have := ActEff.gate (n := n) (θ := θ) g { s with psi := onState (2 ^ n) (phaseOp φ) s.psi } f2
      rwa [show onState (2 ^ n) (phaseOp φ) (onState (2 ^ n) (opOf g) s.psi) = onState (2 ^ n) (opOf g) (onState (2 ^ n) (phaseOp φ) s.psi) from
        (onState_comm (localOp_opOf hu) (localOp_phase n φ) (phase_comm g φ) s.psi).symm]

theorem phaseOp_add (a b : ℝ) (ψ : U64 → ℂ) : phaseOp b (phaseOp a ψ) = phaseOp (a + b) ψ := by
  funext j
  unfold phaseOp
  rw [cis_add]; ring

theorem le_phase_phase (a b : ℝ) : Le n θ [.phase a, .phase b] [.phase (a + b)] := by
  intro s us s' h
  obtain ⟨s1, us1, us2, rfl, h1, h2⟩ := acts_two.1 h
  cases h1 with
  | phase =>
    cases h2 with
    | phase =>
      refine acts_one.2 ?_
      have := ActEff.phase (n := n) (θ := θ) (a + b) s
      dsimp only
      rw [onState_comp (localOp_phase n b)]
      simp only [phaseOp_add]
      exact this

/-- two gates and their merge -/
theorem le_merge {g1 g2 g : UGate} {φ : ℝ} (hm : Merges g1 g2 g φ 0) (hu2 : ∀ q, UGate.uses g2 q → q < n) :
    Le n θ [.gate g1, .gate g2] [.gate g, .phase φ] := by
  intro s us s' h
  obtain ⟨s1, us1, us2, rfl, h1, h2⟩ := acts_two.1 h
  cases h1 with
  | gate _ _ f1 =>
    cases h2 with
    | gate _ _ f2 =>
      refine acts_two.2 ⟨_, [], [], rfl, .gate g s ?_, ?_⟩
      · intro q hq hg
        exact (hm.qubits q hg).elim (f1 q hq) (f2 q hq)
      · have := ActEff.phase (n := n) (θ := θ) φ { s with psi := onState (2 ^ n) (opOf g) s.psi }
        have he : onState (2 ^ n) (opOf g2) (onState (2 ^ n) (opOf g1) s.psi) = onState (2 ^ n) (phaseOp φ) (onState (2 ^ n) (opOf g) s.psi) := by
          rw [onState_comp (localOp_opOf hu2), onState_comp (localOp_phase n φ)]
          have : (fun ψ => opOf g2 (opOf g1 ψ)) = fun ψ => phaseOp φ (opOf g ψ) := by
            funext ψ j
            rw [hm.op]
            unfold phaseOp
            split <;> simp [cis_zero]
          rw [this]
        rwa [he]

/-! ## lines -/

/-- the effect of a line that is not a measurement is a gate on its qubits, or nothing; which one does not depend on the amplitudes -/
theorem effect_shape {l : Line} {it : Item} (hb : l.instr.build = .ok it) (hok : l.instr.OK) {s s' : Situation} {us : List ℝ}
    (he : l.Effect n θ s us s') :
    (∃ F : (U64 → ℂ) → U64 → ℂ, s' = { s with psi := F s.psi } ∧ (∀ ψ, l.Effect n θ { s with psi := ψ } us { s with psi := F ψ }) ∧
      (F = id ∨ ∃ u, Valid u ∧ (∀ q, UGate.uses u q → q ∈ l.instr.qubits) ∧ F = onState (2 ^ n) (opOf u))) ∨
    (∃ q cbit reset u b, l.instr = .measure q cbit reset ∧ us = [u] ∧ l.CondIs s.reg true ∧ q ∉ s.measured ∧ cbit < s.reg.length ∧
      bitProb n s.psi q false ≤ 1 ∧ (b = false ↔ u < bitProb n s.psi q false) ∧ bitProb n s.psi q b ≠ 0 ∧
      s' = ⟨onState (2 ^ n) (afterMeasurement n q b reset) s.psi, s.reg.set cbit b, if reset then s.measured else q :: s.measured⟩) := by
  cases he with
  | skip _ _ hf => exact .inl ⟨id, rfl, fun ψ => .skip l { s with psi := ψ } hf, .inl rfl⟩
  | gate d c _ hc hm =>
    obtain ⟨g, hg, hb⟩ := bind_ok (show (do let g ← d.build; pure (Sum.inl (Gate.det g))) = .ok it from hb)
    obtain ⟨hv, ho, -⟩ := build_valid hok hg
    refine .inl ⟨_, rfl, fun ψ => .gate d c { s with psi := ψ } hc hm, .inr ⟨g, hv, fun q hq => (build_mask hok hg q).1 hq, ?_⟩⟩
    rw [ho]
  | choice ps ds c _ u k hk hc hm hp =>
    obtain ⟨gs, hgs, hb⟩ := bind_ok (show (do
      let gs ← ds.mapM GateDesc.build
      let g ← mkProbabilistic (ps.map some) (gs.map .det)
      pure (Sum.inl g)) = .ok it from hb)
    obtain ⟨g, -, hg⟩ := (mapM_get _ hgs).2 k _ (List.getElem?_eq_getElem hk)
    obtain ⟨hv, ho, -⟩ := build_valid (hok _ (List.getElem_mem hk)) hg
    refine .inl ⟨_, rfl, fun ψ => .choice ps ds c { s with psi := ψ } u k hk hc hm hp, .inr ⟨g, hv, fun q hq => ?_, by rw [ho]⟩⟩
    exact List.mem_flatMap.2 ⟨_, List.getElem_mem hk, (build_mask (hok _ (List.getElem_mem hk)) hg q).1 hq⟩
  | measure p cbit reset c _ u b hc hm hl h1 h2 h3 => exact .inr ⟨p, cbit, reset, u, b, rfl, rfl, hc, hm, hl, h1, h2, h3, rfl⟩
  | rot r key t c _ hc hm ht =>
    obtain ⟨p, hp, hb⟩ := bind_ok (show (do let p ← r.build; pure (Sum.inr (PGate.rot p, key))) = .ok it from hb)
    obtain ⟨hv, ho, -⟩ := build_valid (rot_descOK r t) (rot_build hp t)
    refine .inl ⟨_, rfl, fun ψ => .rot r key t c { s with psi := ψ } hc hm ht, .inr ⟨p.fix t, hv, fun q hq => ?_, by rw [ho]⟩⟩
    unfold UGate.uses at hq
    rw [fix_operands] at hq
    exact (rot_mask hp q).1 hq
  | pchoice ps ls key t c _ u k hk hc hm ht hp =>
    obtain ⟨gs, hgs, hb⟩ := bind_ok (show (do
      let gs ← ls.mapM LeafDesc.build
      let p ← mkParamProbabilistic (ps.map some) gs
      pure (Sum.inr (p, key))) = .ok it from hb)
    obtain ⟨gg, -, hg⟩ := (mapM_get _ hgs).2 k _ (List.getElem?_eq_getElem hk)
    have hkm := List.getElem_mem hk
    have hok' := hok _ hkm
    have : ∃ g, Valid g ∧ (∀ q, UGate.uses g q → q ∈ qubitsOf (ls[k].at 0)) ∧ opOf g = operatorOf (ls[k].at t) := by
      generalize ls[k] = lf at hg hok'
      cases lf with
      | fixed d =>
        obtain ⟨g, hg, -⟩ := bind_ok (show (do let g ← d.build; pure (Sum.inl (Gate.det g))) = .ok gg from hg)
        obtain ⟨hv, ho, -⟩ := build_valid hok' hg
        exact ⟨g, hv, fun q hq => (build_mask hok' hg q).1 hq, ho⟩
      | rot r =>
        obtain ⟨p, hp, -⟩ := bind_ok (show (do let p ← r.build; pure (Sum.inr (PGate.rot p))) = .ok gg from hg)
        obtain ⟨hv, ho, -⟩ := build_valid (rot_descOK r t) (rot_build hp t)
        refine ⟨p.fix t, hv, fun q hq => ?_, ho⟩
        unfold UGate.uses at hq
        rw [fix_operands] at hq
        exact (rot_mask hp q).1 hq
    obtain ⟨g, hv, hq, ho⟩ := this
    refine .inl ⟨_, rfl, fun ψ => .pchoice ps ls key t c { s with psi := ψ } u k hk hc hm ht hp, .inr ⟨g, hv, fun q h => ?_, by rw [ho]⟩⟩
    exact List.mem_flatMap.2 ⟨_, hkm, hq q h⟩

/-- a gate and a line on other qubits; a measurement needs a gate that keeps norms -/
theorem le_gate_line {g : UGate} (hn : n < 64) (hu : ∀ q, UGate.uses g q → q < n) {l : Line} {it : Item} (hb : l.instr.build = .ok it)
    (hok : l.instr.OK) (hq : ∀ q ∈ l.instr.qubits, q < n) (hd : ∀ q, UGate.uses g q → q ∉ l.instr.qubits)
    (hk : (∃ q cbit reset, l.instr = .measure q cbit reset) → KeepsNorm n g) : Le n θ [.gate g, .line l] [.line l, .gate g] := by
  intro s us s' h
  obtain ⟨s1, us1, us2, rfl, h1, h2⟩ := acts_two.1 h
  cases h1 with
  | gate _ _ f1 =>
    cases h2 with
    | line _ _ _ _ he =>
      rcases effect_shape hb hok he with ⟨F, rfl, hF, hF'⟩ | ⟨q, cbit, reset, u, b, hi, rfl, hc, hm, hl, h1, h2, h3, rfl⟩
      · refine acts_two.2 ⟨_, us2, [], by simp, .line l s _ us2 (hF s.psi), ?_⟩
        have := ActEff.gate (n := n) (θ := θ) g { s with psi := F s.psi } f1
        have hcm : F (onState (2 ^ n) (opOf g) s.psi) = onState (2 ^ n) (opOf g) (F s.psi) := by
          rcases hF' with rfl | ⟨u, -, huq, rfl⟩
          · rfl
          · exact onState_comm (localOp_opOf fun q h => hq q (huq q h)) (localOp_opOf hu)
              (opOf_comm fun q h h' => hd q h' (huq q h)) s.psi
        dsimp only
        rw [hcm]
        exact this
      · have hqn : q < n := hq q (by rw [hi]; simp [Instr.qubits])
        have hq64 : q < 64 := by omega
        have hqg : ¬ UGate.uses g q := fun h => hd q h (by rw [hi]; simp [Instr.qubits])
        have hkn := hk ⟨q, cbit, reset, hi⟩
        dsimp only at h1 h2 h3 hm hl hc ⊢
        rw [bitProb_opOf hn.le hkn hq64 hqg] at h1 h2 h3
        obtain ⟨ins, cnd⟩ := l
        dsimp only at hi
        subst hi
        refine acts_two.2 ⟨_, [u], [], by simp, .line _ s _ [u] (.measure q cbit reset cnd s u b hc hm hl h1 h2 h3), ?_⟩
        have := ActEff.gate (n := n) (θ := θ) g ⟨onState (2 ^ n) (afterMeasurement n q b reset) s.psi, s.reg.set cbit b,
          if reset then s.measured else q :: s.measured⟩ (by
            intro p hp
            dsimp only at hp
            split at hp
            · exact f1 p hp
            · rcases List.mem_cons.1 hp with rfl | hp
              · exact hqg
              · exact f1 p hp)
        rw [measure_comm hn.le hkn hu hqn hqg]
        exact this

theorem le_phase_line {φ : ℝ} (hn : n < 64) {l : Line} {it : Item} (hb : l.instr.build = .ok it)
    (hok : l.instr.OK) (hq : ∀ q ∈ l.instr.qubits, q < n) : Le n θ [.phase φ, .line l] [.line l, .phase φ] := by
  intro s us s' h
  obtain ⟨s1, us1, us2, rfl, h1, h2⟩ := acts_two.1 h
  cases h1 with
  | phase =>
    cases h2 with
    | line _ _ _ _ he =>
      rcases effect_shape hb hok he with ⟨F, rfl, hF, hF'⟩ | ⟨q, cbit, reset, u, b, hi, rfl, hc, hm, hl, h1, h2, h3, rfl⟩
      · refine acts_two.2 ⟨_, us2, [], by simp, .line l s _ us2 (hF s.psi), ?_⟩
        have := ActEff.phase (n := n) (θ := θ) φ { s with psi := F s.psi }
        have hcm : F (onState (2 ^ n) (phaseOp φ) s.psi) = onState (2 ^ n) (phaseOp φ) (F s.psi) := by
          rcases hF' with rfl | ⟨u, -, huq, rfl⟩
          · rfl
          · exact onState_comm (localOp_opOf fun q h => hq q (huq q h)) (localOp_phase n φ) (phase_comm u φ) s.psi
        dsimp only
        rw [hcm]
        exact this
      · have hqn : q < n := hq q (by rw [hi]; simp [Instr.qubits])
        dsimp only at h1 h2 h3 hm hl hc ⊢
        rw [bitProb_phase hn.le] at h1 h2 h3
        obtain ⟨ins, cnd⟩ := l
        dsimp only at hi
        subst hi
        refine acts_two.2 ⟨_, [u], [], by simp, .line _ s _ [u] (.measure q cbit reset cnd s u b hc hm hl h1 h2 h3), ?_⟩
        have := ActEff.phase (n := n) (θ := θ) φ ⟨onState (2 ^ n) (afterMeasurement n q b reset) s.psi, s.reg.set cbit b,
          if reset then s.measured else q :: s.measured⟩
        rw [measure_phase hn.le b reset φ s.psi hqn]
        exact this

/-- an unconditional gate line is its gate object -/
theorem le_line_gate {d : GateDesc} {g : UGate} (hd : DescOK d) (hg : d.build = .ok g) : Le n θ [.line ⟨.gate d, none⟩] [.gate g] := by
  intro s us s' h
  have he := acts_one.1 h
  cases he with
  | line _ _ _ _ he =>
    generalize hl : (⟨.gate d, none⟩ : Line) = l at he
    cases he with
    | skip _ _ hf => subst hl; exact absurd hf (by simp [Line.CondIs])
    | gate d' c _ hc hm =>
      injection hl with h1 h2
      injection h1 with h1
      subst h1
      obtain ⟨hv, ho, -⟩ := build_valid hd hg
      rw [← ho]
      exact acts_one.2 (.gate g s fun q hq hu => hm q hq ((build_mask hd hg q).1 hu))
    | choice => cases hl
    | measure => cases hl
    | rot => cases hl
    | pchoice => cases hl

theorem onState_id (dim : Nat) (ψ : U64 → ℂ) : onState dim (fun φ => φ) ψ = ψ := by
  funext j; unfold onState; split <;> rfl

theorem le_ident : Le n θ [.gate .ident] [] := by
  intro s us s' h
  have he := acts_one.1 h
  cases he with
  | gate =>
    have : onState (2 ^ n) (opOf .ident) s.psi = s.psi := by
      have h : opOf .ident = fun φ => φ := by funext φ; exact opOf_ident φ
      rw [h]
      exact onState_id _ _
    rw [this]
    exact .nil _

theorem opOf_phase {φ : ℝ} {o : Operands} (ht : o.t = 0) (hc : o.c = 0) : opOf (.globalPhase φ o) = phaseOp φ := by
  funext ψ j
  rw [opOf_globalPhase ht, if_pos]
  · rfl
  · intro p hp
    have : controls o = [] := by unfold controls; rw [hc, maskToVector_zero]; rfl
    rw [this] at hp
    simp at hp

theorem le_globalPhase {φ : ℝ} {o : Operands} (ht : o.t = 0) (hc : o.c = 0) : Le n θ [.gate (.globalPhase φ o)] [.phase φ] := by
  intro s us s' h
  have he := acts_one.1 h
  cases he with
  | gate =>
    rw [opOf_phase ht hc]
    exact acts_one.2 (.phase φ s)

theorem le_phase_globalPhase {φ : ℝ} {o : Operands} (ht : o.t = 0) (hc : o.c = 0) : Le n θ [.phase φ] [.gate (.globalPhase φ o)] := by
  intro s us s' h
  have he := acts_one.1 h
  cases he with
  | phase =>
    have := ActEff.gate (n := n) (θ := θ) (.globalPhase φ o) s (by
      intro q _ hu
      unfold UGate.uses UGate.operands at hu
      dsimp only at hu
      rw [ht, hc, BitVec.getLsbD_or, zero_bit] at hu
      simp at hu)
    rw [opOf_phase ht hc] at this
    exact acts_one.2 this

theorem le_phase_zero : Le n θ [] [.phase 0] := by
  intro s us s' h
  cases h
  have := ActEff.phase (n := n) (θ := θ) 0 s
  have h0 : phaseOp 0 = fun φ => φ := by
    funext φ j; unfold phaseOp; rw [cis_zero, one_mul]
  rw [h0, onState_id] at this
  exact acts_one.2 this

/-! ## moving gates in a list -/

/-- no common qubits -/
def Apart (g g' : UGate) : Prop := ∀ q, UGate.uses g q → ¬ UGate.uses g' q

theorem Apart.symm {g g' : UGate} (h : Apart g g') : Apart g' g := fun q h1 h2 => h q h2 h1

def InReg (n : Nat) (g : UGate) : Prop := ∀ q, UGate.uses g q → q < n

theorem le_perm {l l' : List UGate} (hp : l.Perm l') (hd : l.Pairwise Apart) (hr : ∀ g ∈ l, InReg n g) :
    Le n θ (l.map .gate) (l'.map .gate) := by
  induction hp with
  | nil => exact Le.refl _
  | cons x h ih =>
    rw [List.map_cons, List.map_cons]
    exact Le.left [.gate x] (ih (List.pairwise_cons.1 hd).2 fun g hg => hr g (List.mem_cons_of_mem _ hg))
  | swap x y l =>
    have h1 := List.pairwise_cons.1 hd
    exact Le.right (l.map .gate) (le_gate_gate (hr y List.mem_cons_self) (hr x (by simp)) (h1.1 x (by simp)))
  | trans h1 h2 ih1 ih2 =>
    have hd2 := (h1.pairwise_iff (R := Apart) (fun h => h.symm)).1 hd
    exact (ih1 hd hr).trans (ih2 hd2 fun g hg => hr g (h1.mem_iff.2 hg))

/-- one action that commutes with all gates of a list -/
theorem le_move {a : Act} {l : List UGate} (h : ∀ g ∈ l, Le n θ [.gate g, a] [a, .gate g]) :
    Le n θ (l.map .gate ++ [a]) (a :: l.map .gate) := by
  induction l with
  | nil => exact Le.refl _
  | cons x l ih =>
    have h1 := ih fun g hg => h g (List.mem_cons_of_mem _ hg)
    have h2 := h x List.mem_cons_self
    have e1 : Le n θ ([.gate x] ++ (l.map .gate ++ [a])) ([.gate x] ++ (a :: l.map .gate)) := Le.left _ h1
    exact e1.trans (Le.right (l.map .gate) h2)

end Verif.Proofs
