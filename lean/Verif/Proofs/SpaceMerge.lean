import Verif.Model.SpaceMerge
import Verif.Proofs.Space
import Verif.Proofs.TaggedOpt

/-! # Merged gates and optimised circuits with execution spaces -/

namespace Verif.Proofs
open Verif Verif.Spec Verif.Model

theorem sfreePhase (g : SUGate) : g.freePhase = freePhaseOf g.gate := rfl

/-- the result without spaces -/
def mergeDown (r : SUGate × ℝ) : UGate × ℝ := (r.1.gate, r.2)

theorem mergeDenseS_down (s : Space) (a b : SUGate) : (mergeDenseS s a b).map mergeDown = mergeDense a.gate b.gate := by
  unfold mergeDenseS
  cases mergeDense a.gate b.gate <;> rfl

/-- what follows the cases of `merge_gate` that return an argument -/
theorem mergeGate_rest {u v : UGate} (hu : ∀ p, u ≠ .perm p) (hu' : u ≠ .ident) (hv : ∀ p, v ≠ .perm p) (hv' : v ≠ .ident)
    (h1 : freePhaseOf u = none) (h2 : freePhaseOf v = none) :
    mergeGate u v = (if ¬ (u.operands.c = v.operands.c ∧ u.operands.v = v.operands.v) then mergeDense u v
      else do
        match ← runStages u v mergeStages with
        | some r => pure r
        | none => mergeDense u v) := by
  cases u with
  | perm p => exact absurd rfl (hu p)
  | ident => exact absurd rfl hu'
  | globalPhase φ o =>
    have h1 : (if o.c = 0 then some φ else none) = none := h1
    cases v with
    | perm p => exact absurd rfl (hv p)
    | ident => exact absurd rfl hv'
    | globalPhase χ o' =>
      have h2 : (if o'.c = 0 then some χ else none) = none := h2
      unfold mergeGate; dsimp only; rw [h1, h2]; rfl
    | _ => unfold mergeGate; dsimp only; rw [h1]; rfl
  | _ =>
    cases v with
    | perm p => exact absurd rfl (hv p)
    | ident => exact absurd rfl hv'
    | globalPhase χ o' =>
      have h2 : (if o'.c = 0 then some χ else none) = none := h2
      unfold mergeGate; dsimp only; rw [h2]; rfl
    | _ => rfl

theorem mergeGateS_rest (s : Space) {a b : SUGate} (hu : ∀ p, a.gate ≠ .perm p) (hu' : a.gate ≠ .ident) (hv : ∀ p, b.gate ≠ .perm p)
    (hv' : b.gate ≠ .ident) :
    mergeGateS s a b = (match freePhaseOf a.gate with
    | some φ => .ok (b, φ)
    | none =>
      match freePhaseOf b.gate with
      | some φ => .ok (a, φ)
      | none =>
        if ¬ (a.gate.operands.c = b.gate.operands.c ∧ a.gate.operands.v = b.gate.operands.v) then mergeDenseS s a b
        else do
          match ← runStages a.gate b.gate mergeStages with
          | some r => pure (⟨r.1, s⟩, r.2)
          | none => mergeDenseS s a b) := by
  rcases a with ⟨u, su⟩
  rcases b with ⟨v, sv⟩
  dsimp only at hu hu' hv hv' ⊢
  cases u with
  | perm p => exact absurd rfl (hu p)
  | ident => exact absurd rfl hu'
  | _ =>
    cases v with
    | perm p => exact absurd rfl (hv p)
    | ident => exact absurd rfl hv'
    | _ => rfl

/-- the four cases of `merge_gate` -/
theorem mergeGateS_cases (s : Space) (a b : SUGate) :
    (∃ e, mergeGateS s a b = .error e ∧ mergeGate a.gate b.gate = .error e) ∨
    (∃ φ, mergeGateS s a b = .ok (a, φ) ∧ mergeGate a.gate b.gate = .ok (a.gate, φ)) ∨
    (∃ φ, mergeGateS s a b = .ok (b, φ) ∧ mergeGate a.gate b.gate = .ok (b.gate, φ)) ∨
    ∃ g φ, mergeGateS s a b = .ok (⟨g, s⟩, φ) ∧ mergeGate a.gate b.gate = .ok (g, φ) := by
  by_cases hu : ∃ p, a.gate = .perm p
  · obtain ⟨p, hp⟩ := hu
    refine .inl ⟨_, ?_, by rw [hp]; exact mergeGate_perm_left p b.gate⟩
    unfold mergeGateS; rw [hp]
  by_cases hv : ∃ p, b.gate = .perm p
  · obtain ⟨p, hp⟩ := hv
    refine .inl ⟨_, ?_, by rw [hp]; exact mergeGate_perm_right a.gate p⟩
    unfold mergeGateS; rw [hp]
    split <;> simp_all
  have hu1 : ∀ p, a.gate ≠ .perm p := fun p h => hu ⟨p, h⟩
  have hv1 : ∀ p, b.gate ≠ .perm p := fun p h => hv ⟨p, h⟩
  by_cases hu2 : a.gate = .ident
  · refine .inr (.inr (.inl ⟨0, ?_, by rw [hu2]; exact mergeGate_ident_left hv1⟩))
    unfold mergeGateS; rw [hu2]
    split <;> simp_all
  by_cases hv2 : b.gate = .ident
  · refine .inr (.inl ⟨0, ?_, by rw [hv2]; exact mergeGate_ident_right hu1⟩)
    unfold mergeGateS; rw [hv2]
    split <;> simp_all
  rw [mergeGateS_rest s hu1 hu2 hv1 hv2]
  cases h1 : freePhaseOf a.gate with
  | some φ => exact .inr (.inr (.inl ⟨φ, rfl, mergeGate_phase_left hu1 hv1 hv2 h1⟩))
  | none =>
    dsimp only
    cases h2 : freePhaseOf b.gate with
    | some φ => exact .inr (.inl ⟨φ, rfl, mergeGate_phase_right hu1 hu2 hv1 h1 h2⟩)
    | none =>
      dsimp only
      rw [mergeGate_rest hu1 hu2 hv1 hv2 h1 h2]
      have hd : (∃ e, mergeDenseS s a b = .error e ∧ mergeDense a.gate b.gate = .error e) ∨
          ∃ g φ, mergeDenseS s a b = .ok (⟨g, s⟩, φ) ∧ mergeDense a.gate b.gate = .ok (g, φ) := by
        unfold mergeDenseS
        cases mergeDense a.gate b.gate with
        | error e => exact .inl ⟨e, rfl, rfl⟩
        | ok r => exact .inr ⟨r.1, r.2, rfl, rfl⟩
      split
      · exact hd.imp id fun h => .inr (.inr h)
      · cases runStages a.gate b.gate mergeStages with
        | error e => exact .inl ⟨e, rfl, rfl⟩
        | ok r =>
          cases r with
          | none => exact hd.imp id fun h => .inr (.inr h)
          | some r => exact .inr (.inr (.inr ⟨r.1, r.2, rfl, rfl⟩))

theorem mergeGateS_down (s : Space) (a b : SUGate) : (mergeGateS s a b).map mergeDown = mergeGate a.gate b.gate := by
  rcases mergeGateS_cases s a b with ⟨e, h1, h2⟩ | ⟨φ, h1, h2⟩ | ⟨φ, h1, h2⟩ | ⟨g, φ, h1, h2⟩ <;> rw [h1, h2] <;> rfl

theorem mergeGateS_home {s : Space} {a b g : SUGate} {φ : ℝ} (h : mergeGateS s a b = .ok (g, φ)) : g = a ∨ g = b ∨ g.space = s := by
  rcases mergeGateS_cases s a b with ⟨e, h1, -⟩ | ⟨φ', h1, -⟩ | ⟨φ', h1, -⟩ | ⟨g', φ', h1, -⟩ <;> rw [h1] at h <;> cases h
  · exact .inl rfl
  · exact .inr (.inl rfl)
  · exact .inr (.inr rfl)

/-! ## optimisation: forgetting the spaces -/

/-- the state of the optimisation without spaces -/
def optDown (s : SOptState) : OptState :=
  ⟨s.gates.map SItem.plain, s.conds, s.phase, s.pool.map SUGate.gate, s.waiting, s.log.map fun p => (p.1.gate, p.2.gate)⟩

theorem push_down (s : SOptState) (g : SItem) (c : Option Condition) : (optDown s).push g.plain c = (s.push g c).map optDown := by
  unfold SOptState.push OptState.push
  show (do let w ← markAll s.waiting _ none; _) = _
  cases markAll s.waiting (Item.operandList g.plain) none with
  | error e => rfl
  | ok w =>
    show (.ok _ : Res OptState) = .ok _
    congr 1
    unfold optDown
    dsimp only
    rw [List.map_append]; rfl

theorem wait_down (s : SOptState) (g : SUGate) : (optDown s).wait g.gate = (s.wait g).map optDown := by
  unfold SOptState.wait OptState.wait
  rw [show (optDown s).pool.length = s.pool.length from List.length_map _]
  show (do let w ← markAll s.waiting g.gate.operandQubitList (some s.pool.length); _) = _
  cases markAll s.waiting g.gate.operandQubitList (some s.pool.length) with
  | error e => rfl
  | ok w =>
    show (.ok _ : Res OptState) = .ok _
    congr 1
    unfold optDown
    dsimp only
    rw [List.map_append]; rfl

theorem pushAll_down (is : List Nat) : ∀ s : SOptState, (optDown s).pushAll is = (s.pushAll is).map optDown := by
  induction is with
  | nil => intro s; rfl
  | cons i is ih =>
    intro s
    unfold SOptState.pushAll OptState.pushAll
    rw [List.foldlM_cons, List.foldlM_cons, show (optDown s).pool = s.pool.map SUGate.gate from rfl, elemAt_map]
    cases elemAt s.pool i with
    | error e => rfl
    | ok g =>
      rw [show Except.map SUGate.gate (.ok g : Res SUGate) = .ok g.gate from rfl, ok_bind, ok_bind]
      have := push_down s (.inl (.det g)) none
      rw [show SItem.plain (.inl (.det g)) = .inl (.det g.gate) from rfl] at this
      rw [this]
      cases s.push (.inl (.det g)) none with
      | error e => rfl
      | ok s1 => exact ih s1

theorem shouldMerge_down (s : SOptState) (mb : Nat) (g : SUGate) (is : List Nat) :
    (optDown s).shouldMerge mb g.gate is = s.shouldMerge mb g is := by
  unfold SOptState.shouldMerge OptState.shouldMerge
  rw [show (optDown s).newlyApplied (.inl (.det g.gate)) = s.newlyApplied (.inl (.det g)) from rfl]
  cases s.newlyApplied (.inl (.det g)) with
  | error e => rfl
  | ok newly =>
    rw [ok_bind, ok_bind, show (optDown s).pool = s.pool.map SUGate.gate from rfl, mapM_elemAt_map]
    cases is.mapM (elemAt s.pool) with
    | error e => rfl
    | ok prev =>
      rw [show Except.map (List.map SUGate.gate) (.ok prev : Res (List SUGate)) = .ok (prev.map SUGate.gate) from rfl, ok_bind, ok_bind]
      dsimp only
      rw [List.foldl_map, List.all_map]
      rcases prev with _ | ⟨p, _ | ⟨q, prev⟩⟩ <;> rfl

theorem mergeAll_down (sp : Space) (is : List Nat) : ∀ (s : SOptState) (g : SUGate),
    (optDown s).mergeAll g.gate is = (s.mergeAll sp g is).map fun r => (optDown r.1, r.2.gate) := by
  induction is with
  | nil => intro s g; rfl
  | cons i is ih =>
    intro s g
    unfold SOptState.mergeAll OptState.mergeAll
    rw [List.foldlM_cons, List.foldlM_cons, show ((optDown s), g.gate).1.pool = s.pool.map SUGate.gate from rfl, elemAt_map]
    cases elemAt s.pool i with
    | error e => rfl
    | ok p =>
      rw [show Except.map SUGate.gate (.ok p : Res SUGate) = .ok p.gate from rfl, ok_bind, ok_bind]
      dsimp only
      rw [← mergeGateS_down sp p g]
      cases mergeGateS sp p g with
      | error e => rfl
      | ok r =>
        have := ih { s with phase := s.phase + r.2, log := s.log ++ [(p, g)] } r.1
        refine Eq.trans ?_ this
        unfold OptState.mergeAll
        rw [show Except.map mergeDown (.ok r : Res (SUGate × ℝ)) = .ok (r.1.gate, r.2) from rfl, ok_bind]
        have : (pure ({ (optDown s) with phase := (optDown s).phase + r.2, log := (optDown s).log ++ [(p.gate, g.gate)] }, r.1.gate) :
            Res (OptState × UGate)) = .ok (optDown { s with phase := s.phase + r.2, log := s.log ++ [(p, g)] }, r.1.gate) := by
          show (.ok _ : Res (OptState × UGate)) = .ok _
          congr 2
          unfold optDown
          dsimp only
          rw [List.map_append]; rfl
        dsimp only
        rw [this, ok_bind]

theorem mergeable_down (sp : Space) (s : SOptState) (mb : Nat) (g : SUGate) :
    (optDown s).mergeable mb g.gate = (s.mergeable sp mb g).map optDown := by
  unfold SOptState.mergeable OptState.mergeable
  rw [show (optDown s).waitingIndices (.inl (.det g.gate)) = s.waitingIndices (.inl (.det g)) from rfl]
  cases s.waitingIndices (.inl (.det g)) with
  | error e => rfl
  | ok is =>
    rw [ok_bind, ok_bind]
    by_cases h : is = []
    · rw [if_pos h, if_pos h, wait_down]
    · rw [if_neg h, if_neg h, shouldMerge_down]
      cases s.shouldMerge mb g is with
      | error e => rfl
      | ok m =>
        rw [ok_bind, ok_bind]
        cases m
        · show (do let s ← (optDown s).pushAll is; s.wait g.gate) = _
          rw [pushAll_down]
          show _ = (do let s ← s.pushAll is; s.wait g).map optDown
          cases s.pushAll is with
          | error e => rfl
          | ok s1 => exact wait_down s1 g
        · show (do let r ← (optDown s).mergeAll g.gate is; r.1.wait r.2) = _
          rw [mergeAll_down sp]
          show _ = (do let r ← s.mergeAll sp g is; r.1.wait r.2).map optDown
          cases s.mergeAll sp g is with
          | error e => rfl
          | ok r => exact wait_down r.1 r.2

theorem pushItem_down (s : SOptState) (g : SItem) (c : Option Condition) : (optDown s).pushItem g.plain c = (s.pushItem g c).map optDown := by
  unfold SOptState.pushItem OptState.pushItem
  rw [show (optDown s).waitingIndices g.plain = s.waitingIndices g from rfl]
  cases s.waitingIndices g with
  | error e => rfl
  | ok is =>
    rw [ok_bind, ok_bind, pushAll_down]
    cases s.pushAll is with
    | error e => rfl
    | ok s1 => exact push_down s1 g c

theorem step_down (sp : Space) (mb : Nat) (s : SOptState) (c : Option Condition) (g : SItem) :
    (optDown s).step mb c g.plain = (s.step sp mb c g).map optDown := by
  rcases c with _ | c
  · rcases g with (⟨u, su⟩ | t | m) | ⟨p, k⟩
    · have hm := mergeable_down sp s mb ⟨u, su⟩
      cases u with
      | ident => rfl
      | globalPhase φ o =>
        show (if o.c = 0 then .ok { optDown s with phase := (optDown s).phase + φ } else (optDown s).mergeable mb (.globalPhase φ o)) =
          (match (if o.c = 0 then some φ else none : Option ℝ) with
            | some φ => (.ok { s with phase := s.phase + φ } : Res SOptState)
            | none => s.mergeable sp mb ⟨.globalPhase φ o, su⟩).map optDown
        by_cases hc : o.c = 0
        · rw [if_pos hc, if_pos hc]; rfl
        · rw [if_neg hc, if_neg hc]; exact hm
      | _ => exact hm
    · exact pushItem_down s (.inl (.prob t)) none
    · exact pushItem_down s (.inl (.meas m)) none
    · exact pushItem_down s (.inr (p, k)) none
  · have e1 : s.step sp mb (some c) g = s.pushItem g (some c) := by
      rcases g with (u | t | m) | ⟨p, k⟩ <;> rfl
    have e2 : (optDown s).step mb (some c) g.plain = (optDown s).pushItem g.plain (some c) := by
      rcases g with (u | t | m) | ⟨p, k⟩ <;> rfl
    rw [e1, e2, pushItem_down]

theorem foldlM_down {sp : Space} {C : SCircuit} {mb : Nat} : ∀ (l : List Nat) (s : SOptState),
    l.foldlM (fun s idx => do
      let g ← elemAt C.plain.gates idx
      let c ← elemAt C.plain.conds idx
      OptState.step mb s c g) (optDown s) =
    (l.foldlM (fun s idx => do
      let g ← elemAt C.gates idx
      let c ← elemAt C.conds idx
      SOptState.step sp mb s c g) s).map optDown
  | [], s => rfl
  | i :: l, s => by
    rw [List.foldlM_cons, List.foldlM_cons, show C.plain.gates = C.gates.map SItem.plain from rfl, elemAt_map,
      show C.plain.conds = C.conds from rfl]
    cases elemAt C.gates i with
    | error e => rfl
    | ok g =>
      rw [show Except.map SItem.plain (.ok g : Res SItem) = .ok g.plain from rfl, ok_bind, ok_bind]
      cases elemAt C.conds i with
      | error e => rfl
      | ok c =>
        rw [ok_bind, ok_bind, step_down sp]
        cases s.step sp mb c g with
        | error e => rfl
        | ok s1 => exact foldlM_down l s1

theorem finish_down (sp : Space) (s : SOptState) : (optDown s).finish = (s.finish sp).map optDown := by
  unfold SOptState.finish OptState.finish
  rw [show (optDown s).waiting = s.waiting from rfl, show (optDown s).pool = s.pool.map SUGate.gate from rfl, mapM_elemAt_map]
  cases (sortUnique (s.waiting.filterMap id)).mapM (elemAt s.pool) with
  | error e => rfl
  | ok gs =>
    rw [show Except.map (List.map SUGate.gate) (.ok gs : Res (List SUGate)) = .ok (gs.map SUGate.gate) from rfl, ok_bind, ok_bind]
    have hs : (⟨(optDown s).gates ++ (gs.map SUGate.gate).map (fun g => .inl (.det g)),
        (optDown s).conds ++ (gs.map SUGate.gate).map (fun _ => none), (optDown s).phase,
        s.pool.map SUGate.gate, s.waiting, (optDown s).log⟩ : OptState) =
        optDown { s with gates := s.gates ++ gs.map (fun g => .inl (.det g)), conds := s.conds ++ gs.map (fun _ => none) } := by
      unfold optDown
      dsimp only
      rw [List.map_append, List.map_map, List.map_map, List.map_map]
      rfl
    dsimp only
    by_cases hp : |s.phase| > 1e-12
    · rw [if_pos (show |(optDown s).phase| > 1e-12 from hp), if_pos hp, hs, show (optDown s).phase = s.phase from rfl]
      cases (GateDesc.globalPhase s.phase [] []).build with
      | error e => rfl
      | ok g => exact push_down _ (.inl (.det ⟨g, sp⟩)) none
    · rw [if_neg (show ¬ |(optDown s).phase| > 1e-12 from hp), if_neg hp, hs]; rfl

/-- **optimisation does not depend on spaces** -/
theorem optimize_down (sp : Space) (C : SCircuit) (mb : Nat) : C.plain.optimize mb =
    (C.optimize sp mb).map fun r => (r.1.plain, r.2.map fun p => (p.1.gate, p.2.gate)) := by
  unfold SCircuit.optimize Circuit.optimize SCircuit.optLoop Circuit.optLoop
  rw [show C.plain.gates.length = C.gates.length from List.length_map _]
  have := foldlM_down (sp := sp) (C := C) (mb := mb) (List.range C.gates.length) ⟨[], [], 0, [], List.replicate C.plain.requiredQubits none, []⟩
  rw [show optDown ⟨[], [], 0, [], List.replicate C.plain.requiredQubits none, []⟩ =
    ⟨[], [], 0, [], List.replicate C.plain.requiredQubits none, []⟩ from rfl] at this
  rw [this]
  cases (List.range C.gates.length).foldlM (fun s idx => do
      let g ← elemAt C.gates idx
      let c ← elemAt C.conds idx
      SOptState.step sp mb s c g) ⟨[], [], 0, [], List.replicate C.plain.requiredQubits none, []⟩ with
  | error e => rfl
  | ok s =>
    show (do
      let s ← (optDown s).finish
      pure (⟨s.gates, s.conds⟩, s.log) : Res (Circuit × List (UGate × UGate))) = (do
      let s ← s.finish sp
      pure (⟨s.gates, s.conds⟩, s.log) : Res (SCircuit × List (SUGate × SUGate))).map _
    rw [finish_down sp]
    cases s.finish sp <;> rfl

/-! ## optimisation: where the gates come from -/

/-- every gate comes from the circuit or was made for space `sp` -/
def Origin (sp : Space) (C : SCircuit) (s : SOptState) : Prop :=
  (∀ e ∈ s.gates, e ∈ C.gates ∨ ∃ g : SUGate, e = .inl (.det g) ∧ g.space = sp) ∧
  ∀ g ∈ s.pool, .inl (.det g) ∈ C.gates ∨ g.space = sp

theorem push_origin {sp : Space} {C : SCircuit} {s s' : SOptState} {e : SItem} {c : Option Condition} (h : Origin sp C s)
    (he : e ∈ C.gates ∨ ∃ g : SUGate, e = .inl (.det g) ∧ g.space = sp) (hs : s.push e c = .ok s') : Origin sp C s' := by
  obtain ⟨w, -, hs⟩ := bind_ok hs
  cases hs
  refine ⟨fun x hx => ?_, h.2⟩
  rcases List.mem_append.1 hx with hx | hx
  · exact h.1 x hx
  · rw [List.mem_singleton.1 hx]; exact he

theorem wait_origin {sp : Space} {C : SCircuit} {s s' : SOptState} {g : SUGate} (h : Origin sp C s)
    (hg : .inl (.det g) ∈ C.gates ∨ g.space = sp) (hs : s.wait g = .ok s') : Origin sp C s' := by
  obtain ⟨w, -, hs⟩ := bind_ok hs
  cases hs
  refine ⟨h.1, fun x hx => ?_⟩
  rcases List.mem_append.1 hx with hx | hx
  · exact h.2 x hx
  · rw [List.mem_singleton.1 hx]; exact hg

theorem pool_mem {α : Type} {l : List α} {i : Nat} {a : α} (h : elemAt l i = .ok a) : a ∈ l := by
  unfold elemAt at h
  split at h
  · next hi => cases h; exact List.mem_of_getElem? hi
  · cases h

theorem pushAll_origin {sp : Space} {C : SCircuit} : ∀ (is : List Nat) (s s' : SOptState), Origin sp C s → s.pushAll is = .ok s' → Origin sp C s'
  | [], s, s', h, hs => by cases hs; exact h
  | i :: is, s, s', h, hs => by
    unfold SOptState.pushAll at hs
    rw [List.foldlM_cons] at hs
    obtain ⟨s1, h1, h2⟩ := bind_ok hs
    obtain ⟨g, hg, h1⟩ := bind_ok h1
    refine pushAll_origin is s1 s' (push_origin h ?_ h1) h2
    exact (h.2 g (pool_mem hg)).imp id fun e => ⟨g, rfl, e⟩

theorem mergeAll_origin {sp : Space} {C : SCircuit} : ∀ (is : List Nat) (s : SOptState) (g : SUGate) (r : SOptState × SUGate), Origin sp C s →
    (.inl (.det g) ∈ C.gates ∨ g.space = sp) → s.mergeAll sp g is = .ok r → Origin sp C r.1 ∧ (.inl (.det r.2) ∈ C.gates ∨ r.2.space = sp)
  | [], s, g, r, h, hg, hs => by cases hs; exact ⟨h, hg⟩
  | i :: is, s, g, r, h, hg, hs => by
    unfold SOptState.mergeAll at hs
    rw [List.foldlM_cons] at hs
    obtain ⟨a, h1, h2⟩ := bind_ok hs
    obtain ⟨p, hp, h1⟩ := bind_ok h1
    obtain ⟨q, hq, h1⟩ := bind_ok h1
    cases h1
    obtain ⟨q, φ⟩ := q
    refine mergeAll_origin is _ q r ?_ ?_ h2
    · exact h
    · rcases mergeGateS_home hq with rfl | rfl | e
      · exact h.2 _ (pool_mem hp)
      · exact hg
      · exact .inr e

theorem pushItem_origin {sp : Space} {C : SCircuit} {s s' : SOptState} {e : SItem} {c : Option Condition} (h : Origin sp C s)
    (he : e ∈ C.gates) (hs : s.pushItem e c = .ok s') : Origin sp C s' := by
  obtain ⟨is, -, hs⟩ := bind_ok hs
  obtain ⟨s1, h1, h2⟩ := bind_ok hs
  exact push_origin (pushAll_origin is s s1 h h1) (.inl he) h2

theorem mergeable_origin {sp : Space} {C : SCircuit} {s s' : SOptState} {g : SUGate} {mb : Nat} (h : Origin sp C s)
    (hg : .inl (.det g) ∈ C.gates) (hs : s.mergeable sp mb g = .ok s') : Origin sp C s' := by
  obtain ⟨is, -, hs⟩ := bind_ok hs
  by_cases h0 : is = []
  · rw [if_pos h0] at hs
    exact wait_origin h (.inl hg) hs
  · rw [if_neg h0] at hs
    obtain ⟨m, -, hs⟩ := bind_ok hs
    cases m
    · obtain ⟨s1, h1, h2⟩ := bind_ok (show (do let s ← s.pushAll is; s.wait g : Res SOptState) = _ from hs)
      exact wait_origin (pushAll_origin is s s1 h h1) (.inl hg) h2
    · obtain ⟨r, h1, h2⟩ := bind_ok (show (do let r ← s.mergeAll sp g is; r.1.wait r.2 : Res SOptState) = _ from hs)
      obtain ⟨h3, h4⟩ := mergeAll_origin is s g r h (.inl hg) h1
      exact wait_origin h3 h4 h2

theorem step_origin {sp : Space} {C : SCircuit} {s s' : SOptState} {e : SItem} {c : Option Condition} {mb : Nat} (h : Origin sp C s)
    (he : e ∈ C.gates) (hs : s.step sp mb c e = .ok s') : Origin sp C s' := by
  rcases c with _ | c
  · rcases e with (g | t | m) | ⟨p, k⟩
    · unfold SOptState.step at hs
      dsimp only at hs
      split at hs
      · cases hs; exact h
      · split at hs
        · cases hs; exact h
        · exact mergeable_origin h he hs
    · exact pushItem_origin h he hs
    · exact pushItem_origin h he hs
    · exact pushItem_origin h he hs
  · have e1 : s.step sp mb (some c) e = s.pushItem e (some c) := by
      rcases e with (u | t | m) | ⟨p, k⟩ <;> rfl
    rw [e1] at hs
    exact pushItem_origin h he hs

theorem loop_origin {sp : Space} {C : SCircuit} {mb : Nat} : ∀ (l : List Nat) (s s' : SOptState), Origin sp C s →
    l.foldlM (fun s idx => do
      let g ← elemAt C.gates idx
      let c ← elemAt C.conds idx
      SOptState.step sp mb s c g) s = .ok s' → Origin sp C s'
  | [], s, s', h, hs => by cases hs; exact h
  | i :: l, s, s', h, hs => by
    rw [List.foldlM_cons] at hs
    obtain ⟨s1, h1, h2⟩ := bind_ok hs
    obtain ⟨g, hg, h1⟩ := bind_ok h1
    obtain ⟨c, -, h1⟩ := bind_ok h1
    exact loop_origin l s1 s' (step_origin h (pool_mem hg) h1) h2

theorem mapM_pool_mem {α : Type} {l : List α} : ∀ {is : List Nat} {r : List α}, is.mapM (elemAt l) = .ok r → ∀ a ∈ r, a ∈ l
  | [], r, h, a, ha => by cases h; cases ha
  | i :: is, r, h, a, ha => by
    rw [List.mapM_cons] at h
    obtain ⟨x, hx, h⟩ := bind_ok h
    obtain ⟨xs, hxs, h⟩ := bind_ok h
    cases h
    rcases List.mem_cons.1 ha with rfl | ha
    · exact pool_mem hx
    · exact mapM_pool_mem hxs a ha

theorem finish_origin {sp : Space} {C : SCircuit} {s s' : SOptState} (h : Origin sp C s) (hs : s.finish sp = .ok s') : Origin sp C s' := by
  unfold SOptState.finish at hs
  obtain ⟨gs, hgs, hs⟩ := bind_ok hs
  dsimp only at hs
  have h1 : Origin sp C { s with gates := s.gates ++ gs.map (fun g => .inl (.det g)), conds := s.conds ++ gs.map (fun _ => none) } := by
    refine ⟨fun e he => ?_, h.2⟩
    rcases List.mem_append.1 he with he | he
    · exact h.1 e he
    · obtain ⟨g, hg, rfl⟩ := List.mem_map.1 he
      exact (h.2 g (mapM_pool_mem hgs g hg)).imp id fun e => ⟨g, rfl, e⟩
  split at hs
  · obtain ⟨g, -, hs⟩ := bind_ok hs
    exact push_origin h1 (.inr ⟨⟨g, sp⟩, rfl, rfl⟩) hs
  · cases hs; exact h1

theorem optimize_origin {sp : Space} {C C' : SCircuit} {log : List (SUGate × SUGate)} {mb : Nat} (h : C.optimize sp mb = .ok (C', log)) :
    ∀ e ∈ C'.gates, e ∈ C.gates ∨ ∃ g : SUGate, e = .inl (.det g) ∧ g.space = sp := by
  obtain ⟨s1, h1, h⟩ := bind_ok h
  obtain ⟨s2, h2, h⟩ := bind_ok h
  cases h
  exact (finish_origin (loop_origin _ _ _ ⟨by simp, by simp⟩ h1) h2).1

end Verif.Proofs
